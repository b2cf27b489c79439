import Verif.Io.MatrixFile
import Verif.Io.BlockFileProps
/-
C94: files of matrices of polynomials.
-/
namespace Verif.Io
open Verif KL

/-- writing both files and looking for one polynomial -/
def lookUp (nd fix : Bool) (b : Block) (cols : List (List Nat)) (fuel x y : Nat) : Res Nat := do
  let bf ← writeBlock b
  let mf ← writeMatrix nd fix cols
  let i ← readBlock bf
  let m ← openMatrix mf i
  let r ← m.find nd fuel x y
  return r.1

/-- C94, refuted with assertions: whatever the table is, writing the matrix ends in a failing assertion, unless the block is empty -/
theorem C94_assertion_false (col : List Nat) (cols : List (List Nat)) : writeMatrix false false (col :: cols) = .assertFail := by
  have : writeRow false false 0 col = .assertFail := by
    rw [writeRow, if_pos]
    simp [primMap]
  rw [writeMatrix, writeRows, this]
  rfl

/-- the block of the trivial representation of `PGL(2,R)`: a discrete series, for which the root is imaginary of type II, and two principal series -/
def exBlock2 : Block where
  rank := 1
  size := 3
  length := fun x => if x = 0 then 0 else 1
  status := fun _ x => if x = 0 then .imaginaryTypeII else .realTypeII
  crossImage := fun _ x => if x = 0 then some 0 else some (3 - x)
  cayleyImage := fun _ x => if x = 0 then (some 1, some 2) else (some 0, none)

theorem exBlock2_writable : Writable exBlock2 := by
  refine ⟨by decide, by decide, by decide, ?_, by decide, ?_, ?_⟩
  · intro x y h1 h2
    show (if x = 0 then 0 else 1) ≤ (if y = 0 then 0 else 1)
    split <;> split <;> omega
  all_goals
    intro s x _ _ h
    have h : (if x = 0 then Status.imaginaryTypeII else Status.realTypeII) = _ := h
    split at h <;> cases h

/-- C94, refuted without assertions: the polynomial found is not the one written; element 0 is primitive for the descents of element 1, its polynomial has number 1, and 0 is found -/
theorem C94_find_false : ∃ (b : Block) (cols : List (List Nat)) (x y : Nat), Writable b ∧ b.isPrimitive x (b.descentSet y) = true ∧ cols[y]? = some [1] ∧
    ((List.range b.size).filter fun z => b.isPrimitive z (b.descentSet y) && decide (b.length z < b.length y)) = [x] ∧ lookUp true false b cols 5 x y = .ok 0 :=
  ⟨exBlock2, [[], [1], [1]], 0, 1, exBlock2_writable, by decide +kernel, rfl, by decide +kernel, by decide +kernel⟩

/-- C94, refuted without assertions: reading the row of an element with no primitive elements of less length has undefined behaviour -/
theorem C94_empty_false : lookUp true false exBlock2 [[], [1], [1]] 5 0 0 = .undefined := by decide +kernel

/-- with one more bit in the bitmap the right polynomial is found in these cases -/
example : lookUp false true exBlock2 [[], [1], [1]] 5 0 1 = .ok 1 ∧ lookUp false true exBlock2 [[], [1], [1]] 5 0 0 = .ok 1 := by decide +kernel

/-- the elements of a list at the places of set bits -/
def sel : List Bool → List Nat → List Nat
  | [], _ => []
  | _, [] => []
  | b :: bs, w :: ws => if b then w :: sel bs ws else sel bs ws

theorem bitLoop_zero (k : Nat) (weak : List Nat) : bitLoop k 0 weak = .ok [] := by
  cases k with
  | zero => rfl
  | succ k => unfold bitLoop; rw [if_pos rfl]

theorem bitLoop_spec : ∀ (bits : List Bool) (k : Nat) (weak : List Nat), bits.length ≤ k → bits.length ≤ weak.length → bitLoop k (bitsVal bits) weak = .ok (sel bits weak)
  | [], k, weak, _, _ => bitLoop_zero k weak
  | b :: bs, 0, weak, h, _ => by simp at h
  | b :: bs, k + 1, [], _, h => by simp at h
  | b :: bs, k + 1, w :: ws, h1, h2 => by
    have ih := bitLoop_spec bs k ws (by simpa using h1) (by simpa using h2)
    rw [bitLoop, bitsVal, sel]
    cases b with
    | false =>
      rw [Bool.toNat_false, Nat.zero_add, if_neg (by simp : ¬ (false = true))]
      by_cases h : 2 * bitsVal bs = 0
      · rw [if_pos h]
        rw [show bitsVal bs = 0 by omega, bitLoop_zero] at ih
        exact ih
      · rw [if_neg h, if_neg (by omega), Nat.mul_div_cancel_left _ (by omega)]
        exact ih
    | true =>
      rw [Bool.toNat_true, if_neg (by omega), if_pos (by omega), if_pos rfl, show (1 + 2 * bitsVal bs) / 2 = bitsVal bs by omega]
      simp only [ih, Res.ok_bind, Res.pure_eq]

theorem sel_split : ∀ (n : Nat) (bits : List Bool) (weak : List Nat), sel bits weak = sel (bits.take n) weak ++ sel (bits.drop n) (weak.drop n)
  | 0, bits, weak => by simp [sel]
  | n + 1, [], weak => by simp [sel]
  | n + 1, b :: bs, [] => by
    cases h : bs.drop n <;> simp [sel, h]
  | n + 1, b :: bs, w :: ws => by
    have := sel_split n bs ws
    rw [List.take_succ_cons, List.drop_succ_cons, List.drop_succ_cons, sel, sel, this]
    cases b <;> simp

theorem chunkLoop_spec : ∀ (k : Nat) (bits : List Bool) (weak : List Nat), bits.length ≤ 32 * k → bits.length ≤ weak.length → chunkLoop (chunks k bits) weak = .ok (sel bits weak)
  | 0, bits, weak, h, _ => by
    have : bits = [] := List.length_eq_zero_iff.1 (by omega)
    rw [this]
    rfl
  | k + 1, bits, weak, h1, h2 => by
    rw [chunks, chunkLoop, bitLoop_spec _ _ _ (by rw [List.length_take]; omega) (by rw [List.length_take]; omega), Res.ok_bind,
      chunkLoop_spec k (bits.drop 32) (weak.drop 32) (by rw [List.length_drop]; omega) (by rw [List.length_drop, List.length_drop]; omega), Res.ok_bind, Res.pure_eq, ← sel_split]

theorem bitsVal_lt : ∀ (bits : List Bool), bitsVal bits < 2 ^ bits.length
  | [] => by simp [bitsVal]
  | b :: bs => by
    have := bitsVal_lt bs
    rw [bitsVal, List.length_cons, Nat.pow_succ]
    cases b <;> simp <;> omega

theorem chunks_spec : ∀ (k : Nat) (bits : List Bool), (chunks k bits).length = k ∧ ∀ c ∈ chunks k bits, c < 2 ^ 32
  | 0, _ => by simp [chunks]
  | k + 1, bits => by
    obtain ⟨h1, h2⟩ := chunks_spec k (bits.drop 32)
    refine ⟨by rw [chunks, List.length_cons, h1], ?_⟩
    intro c hc
    rw [chunks, List.mem_cons] at hc
    rcases hc with rfl | hc
    · exact Nat.lt_of_lt_of_le (bitsVal_lt _) (Nat.pow_le_pow_right (by omega) (by rw [List.length_take]; omega))
    · exact h2 c hc

/-- what follows the number of a row -/
def rowTail (col : List Nat) : List Nat :=
  putInt (col.length + 1) ++ ((chunks (nChunks (col.length + 1)) (primMap true col)).flatMap putInt ++ ((col.filter fun c => c ≠ 0).flatMap putInt ++ putInt 1))

theorem primMap_length (col : List Nat) : (primMap true col).length = col.length + 1 := by simp [primMap]

theorem writeRow_spec (nd : Bool) (y : Nat) (col : List Nat) : writeRow nd true y col = .ok (putInt y ++ rowTail col) := by
  rw [writeRow, if_neg (by simp [primMap_length]), primMap_length, rowTail]
  simp only [List.append_assoc]

theorem rowTail_length (col : List Nat) : ∃ k, (rowTail col).length = 4 * k ∧ k ≤ 3 + 2 * col.length := by
  refine ⟨1 + nChunks (col.length + 1) + (col.filter fun c => c ≠ 0).length + 1, ?_, ?_⟩
  · rw [rowTail]
    simp only [List.length_append, putInt_length, flat_length, (chunks_spec _ _).1]
    omega
  · have := List.length_filter_le (fun c => decide (c ≠ 0)) col
    rw [nChunks]
    omega

theorem writeRows_spec (nd : Bool) : ∀ (cols : List (List Nat)) (y pos offset k : Nat), pos + 4 = offset + 4 * k → k < 2 ^ 32 → (∀ col ∈ cols, col.length < 2 ^ 30) →
    ∃ R D, writeRows nd true cols y pos offset = .ok (R, D) ∧ D.length = cols.length ∧ (∀ d ∈ D, d < 2 ^ 32) ∧ (cols ≠ [] → 4 ≤ R.length) ∧
      ∀ j col, cols[j]? = some col → ∃ pre post, R = pre ++ (putInt (y + j) ++ rowTail col) ++ post ∧ (cumulate offset D)[j]? = some (pos + pre.length + 4)
  | [], _, _, _, _, _, _, _ => ⟨[], [], rfl, rfl, by simp, by simp, by simp⟩
  | c :: cols, y, pos, offset, k, hk, hk', hc => by
    obtain ⟨t, ht1, ht2⟩ := rowTail_length c
    have hcl := hc c (by simp)
    have hrow : (putInt y ++ rowTail c).length = 4 * (t + 1) := by rw [List.length_append, putInt_length, ht1]; omega
    obtain ⟨R, D, h1, h2, h3, -, h4⟩ := writeRows_spec nd cols (y + 1) (pos + (putInt y ++ rowTail c).length) (pos + 4) (t + 1) (by rw [hrow]; omega) (by omega) (fun col h => hc col (by simp [h]))
    have hd : (pos + 4 - offset) / 4 % 2 ^ 32 = k := by omega
    refine ⟨putInt y ++ rowTail c ++ R, k :: D, by rw [writeRows, writeRow_spec, Res.ok_bind, h1, Res.ok_bind, Res.pure_eq, hd], by simp [h2], ?_, ?_, ?_⟩
    · intro d hd'
      rcases List.mem_cons.1 hd' with rfl | hd'
      · exact hk'
      · exact h3 d hd'
    · intro _
      rw [List.length_append, hrow]
      omega
    · intro j col hj
      cases j with
      | zero =>
        simp only [List.getElem?_cons_zero, Option.some.injEq] at hj
        subst hj
        refine ⟨[], R, by simp, ?_⟩
        rw [cumulate, List.getElem?_cons_zero, ← hk]
        rfl
      | succ j =>
        obtain ⟨pre, post, g1, g2⟩ := h4 j col (by simpa using hj)
        refine ⟨putInt y ++ rowTail c ++ pre, post, ?_, ?_⟩
        · rw [g1, show y + 1 + j = y + (j + 1) by omega]
          simp only [List.append_assoc]
        · rw [cumulate, List.getElem?_cons_succ, ← hk, g2]
          congr 1
          simp only [List.length_append]
          omega

/-- the file: positions of rows are read, and at each there is the row -/
theorem matrix_read (nd : Bool) (cols : List (List Nat)) (hne : cols ≠ []) (hc : ∀ col ∈ cols, col.length < 2 ^ 30) (i : BlockInfo) (hi : i.size = cols.length) :
    ∃ file pos, writeMatrix nd true cols = .ok file ∧ openMatrix file i = .ok ⟨file, i, pos, undefBlock, [], 0⟩ ∧ ∀ (y : Nat) (col : List Nat), cols[y]? = some col → ∃ p rest, pos[y]? = some p ∧ file.drop p = rowTail col ++ rest := by
  obtain ⟨R, D, h1, h2, h3, h4, h5⟩ := writeRows_spec nd cols 0 0 0 1 rfl (by omega) hc
  have h4 := h4 hne
  have hlen : (putInt magicCode ++ (R ++ D.flatMap putInt).drop 4).length = (R ++ D.flatMap putInt).length := by
    rw [List.length_append, List.length_drop, putInt_length, List.length_append]
    omega
  have hdrop : ∀ p, 4 ≤ p → (putInt magicCode ++ (R ++ D.flatMap putInt).drop 4).drop p = (R ++ D.flatMap putInt).drop p := by
    intro p hp
    obtain ⟨q, rfl⟩ : ∃ q, p = 4 + q := ⟨p - 4, by omega⟩
    rw [← List.drop_drop, List.drop_left' (putInt_length _), List.drop_drop]
  have hD : (D.flatMap putInt).length = 4 * cols.length := by rw [flat_length, h2]
  refine ⟨_, cumulate 0 D, by rw [writeMatrix, h1, Res.ok_bind, Res.pure_eq], ?_, ?_⟩
  · have hm : magicCode < 2 ^ 32 := by decide
    rw [openMatrix, putInt_read hm, Res.ok_bind, if_pos rfl, hlen, List.length_append, hi, hD, if_neg (by omega), Nat.add_sub_cancel, hdrop _ h4, List.drop_left' rfl]
    have := readMany_spec D [] h3
    rw [List.append_nil, h2] at this
    rw [this, Res.ok_bind, Res.pure_eq]
  · intro y col hy
    obtain ⟨pre, post, g1, g2⟩ := h5 y col hy
    refine ⟨_, post ++ D.flatMap putInt, g2, ?_⟩
    rw [hdrop _ (by omega), g1, show 0 + pre.length + 4 = pre.length + 4 by omega, ← List.drop_drop]
    have : pre ++ (putInt (0 + y) ++ rowTail col) ++ post ++ D.flatMap putInt = pre ++ (putInt (0 + y) ++ (rowTail col ++ (post ++ D.flatMap putInt))) := by simp only [List.append_assoc]
    rw [this, List.drop_left' rfl, List.drop_left' (putInt_length _)]

/-- the number of the polynomial for `r`, in a column `col` for the elements `ws` -/
def polNr : List Nat → List Nat → Nat → Nat
  | c :: cs, w :: ws, r => if w = r then c else polNr cs ws r
  | _, _, _ => 0

theorem polNr_notin : ∀ (col ws : List Nat) (r : Nat), r ∉ ws → polNr col ws r = 0
  | [], _, _, _ => by simp [polNr]
  | _ :: _, [], _, _ => by simp [polNr]
  | c :: cs, w :: ws, r, h => by
    rw [List.mem_cons, not_or] at h
    rw [polNr, if_neg (fun e => h.1 e.symm)]
    exact polNr_notin cs ws r h.2

theorem sel_sub : ∀ (bits : List Bool) (ws : List Nat) (z : Nat), z ∈ sel bits ws → z ∈ ws
  | [], _, _, h => by simp [sel] at h
  | _ :: _, [], _, h => by simp [sel] at h
  | b :: bs, w :: ws, z, h => by
    rw [sel] at h
    cases b with
    | false => exact List.mem_cons_of_mem _ (sel_sub bs ws z (by simpa using h))
    | true =>
      rw [if_pos rfl, List.mem_cons] at h
      rcases h with rfl | h
      · simp
      · exact List.mem_cons_of_mem _ (sel_sub bs ws z h)

/-- the search among strongly primitive elements -/
theorem search_spec : ∀ (col ws : List Nat) (r y : Nat), ws.Pairwise (· < ·) → col.length = ws.length → r < y →
    (polNr col ws r = 0 ∧ r ∉ sel (col.map fun c => decide (c ≠ 0)) ws ++ [y]) ∨
    ∃ k, (sel (col.map fun c => decide (c ≠ 0)) ws ++ [y]).findIdx (fun z => decide (z ≥ r)) = k ∧ (sel (col.map fun c => decide (c ≠ 0)) ws ++ [y])[k]? = some r ∧ (col.filter fun c => decide (c ≠ 0))[k]? = some (polNr col ws r)
  | [], ws, r, y, _, _, hr => .inl ⟨by simp [polNr], by simp [sel]; omega⟩
  | _ :: _, [], r, y, _, h, _ => by simp at h
  | c :: cs, w :: ws, r, y, hp, hl, hr => by
    rw [List.pairwise_cons] at hp
    have ih := search_spec cs ws r y hp.2 (by simpa using hl) hr
    rw [List.map_cons, sel, polNr, List.filter_cons]
    by_cases hc : c = 0
    · have e : decide (c ≠ 0) = false := by simp [hc]
      simp only [e, Bool.false_eq_true, if_false]
      by_cases hw : w = r
      · rw [if_pos hw]
        refine .inl ⟨hc, fun hm => ?_⟩
        rcases List.mem_append.1 hm with hm | hm
        · have := hp.1 r (sel_sub _ _ _ hm)
          omega
        · simp at hm
          omega
      · rw [if_neg hw]
        exact ih
    · have e : decide (c ≠ 0) = true := by simp [hc]
      simp only [e, if_true]
      by_cases hw : w = r
      · rw [if_pos hw]
        refine .inr ⟨0, ?_, by simp [hw], rfl⟩
        rw [List.cons_append, List.findIdx_cons]
        simp [hw]
      · rw [if_neg hw]
        by_cases hlt : w < r
        · rcases ih with ⟨i1, i2⟩ | ⟨k, i1, i2, i3⟩
          · refine .inl ⟨i1, ?_⟩
            rw [List.cons_append, List.mem_cons, not_or]
            exact ⟨fun e => hw e.symm, i2⟩
          · refine .inr ⟨k + 1, ?_, by simpa using i2, by simpa using i3⟩
            rw [List.cons_append, List.findIdx_cons]
            have : decide (w ≥ r) = false := by simp; omega
            rw [this, i1]
            rfl
        · have hn : r ∉ ws := fun hm => by have := hp.1 r hm; omega
          refine .inl ⟨polNr_notin _ _ _ hn, ?_⟩
          rw [List.cons_append, List.mem_cons, not_or]
          refine ⟨fun e => hw e.symm, fun hm => ?_⟩
          rcases List.mem_append.1 hm with hm | hm
          · exact hn (sel_sub _ _ _ hm)
          · simp at hm
            omega

theorem flat_get : ∀ (E : List Nat) (rest : List Nat) (k c : Nat), (∀ c ∈ E, c < 2 ^ 32) → E[k]? = some c → readBytes 4 ((E.flatMap putInt ++ rest).drop (4 * k)) = .ok c
  | [], _, _, _, _, h => by simp at h
  | e :: E, rest, 0, c, hE, h => by
    simp only [List.getElem?_cons_zero, Option.some.injEq] at h
    subst h
    rw [Nat.mul_zero, List.drop_zero, List.flatMap_cons, List.append_assoc]
    exact putInt_read (hE e (by simp)) _
  | e :: E, rest, k + 1, c, hE, h => by
    rw [List.flatMap_cons, List.append_assoc, show 4 * (k + 1) = 4 + 4 * k by omega, ← List.drop_drop, List.drop_left' (putInt_length _)]
    exact flat_get E rest k c (fun c hc => hE c (by simp [hc])) (by simpa using h)

theorem filter_split {α : Type} (q : α → Bool) : ∀ (l : List α), l.Pairwise (fun a b => q b = true → q a = true) → l = l.filter q ++ l.filter fun a => !q a
  | [], _ => rfl
  | a :: l, h => by
    rw [List.pairwise_cons] at h
    have ih := filter_split q l h.2
    by_cases ha : q a = true
    · rw [List.filter_cons_of_pos ha, List.filter_cons_of_neg (by simp [ha]), List.cons_append, ← ih]
    · have h0 : l.filter q = [] := by
        rw [List.filter_eq_nil_iff]
        exact fun b hb hq => ha (h.1 b hb hq)
      rw [List.filter_cons_of_neg ha, List.filter_cons_of_pos (by simp [ha]), h0, List.nil_append]
      rw [h0, List.nil_append] at ih
      rw [← ih]

/-- the primitive elements for the descents of `y` that have less length than `y`, in order -/
def rowElements (b : Block) (y : Nat) : List Nat := (List.range b.size).filter fun x => b.isPrimitive x (b.descentSet y) && decide (b.length x < b.length y)

/-- the tables that are written: for each element `y` of the block the numbers of polynomials for the primitive elements of less length -/
structure Table (b : Block) (cols : List (List Nat)) : Prop where
  block : Writable b
  size : b.size < 2 ^ 30
  number : cols.length = b.size
  columns : ∀ (y : Nat) (col : List Nat), cols[y]? = some col → col.length = (rowElements b y).length
  entries : ∀ col ∈ cols, ∀ c ∈ col, c < 2 ^ 32

/-- calls of `find_pol_nr`, one after another: the numbers found -/
def findAll (nd : Bool) (fuel : Nat) : MatInfo → List (Nat × Nat) → Res (List Nat)
  | _, [] => .ok []
  | m, q :: l => do
    let r ← m.find nd fuel q.1 q.2
    let s ← findAll nd fuel r.2 l
    return r.1 :: s

/-- what is to be found: `r` is reached from `x` by ascents that are descents of `y`; beyond `y` the polynomial is 0, for `y` it is 1, and otherwise `r` is primitive and the number is that in the table, or 0 if there is none because `r` has the length of `y` -/
def IsNumber (b : Block) (cols : List (List Nat)) (x y v : Nat) : Prop :=
  ∃ r col, Reaches b y x r ∧ cols[y]? = some col ∧ ((r > y ∧ v = 0) ∨ (r = y ∧ v = 1) ∨ (r < y ∧ b.isPrimitive r (b.descentSet y) = true ∧ v = polNr col (rowElements b y) r))

/-- the state for the row `y` -/
def RowState (cols : List (List Nat)) (b : Block) (m : MatInfo) : Prop :=
  ∃ col rest, cols[m.curY]? = some col ∧ m.strong = sel (col.map fun c => decide (c ≠ 0)) (rowElements b m.curY) ++ [m.curY] ∧ m.file.drop m.entries = (col.filter fun c => decide (c ≠ 0)).flatMap putInt ++ rest

theorem floor_spec {b : Block} (hb : Writable b) {bf : List Nat} {i : BlockInfo} (w1 : writeBlock b = .ok bf) (w2 : readBlock bf = .ok i) {y : Nat} (hy : y < b.size) :
    ∀ x, x < b.size → (lengthFloor i y ≤ x ↔ b.length y ≤ b.length x) := by
  obtain ⟨st, h1, h2, file', h3, h4⟩ := file_read hb
  rw [w1] at h3
  cases h3
  rw [w2] at h4
  cases h4
  intro x hx
  have hmax := hb.lengths y (b.size - 1) (by omega) (by omega)
  have htake : (0 :: st ++ [b.size]).take (b.length (b.size - 1) + 1) = 0 :: st := by
    rw [← h1]
    exact List.take_left' (by simp)
  have hcount : ((0 :: st).takeWhile fun z => decide (z ≤ y)).length = b.length y + 1 := by
    refine takeWhile_count y _ _ (by rw [List.length_cons, h1]; omega) ?_
    intro j e hj
    cases j with
    | zero => simp at hj; omega
    | succ j =>
      have := (h2 j e (by simpa using hj)).2 y hy
      omega
  have hpre := List.prefix_iff_eq_take.1 (List.takeWhile_prefix (l := 0 :: st) fun z => decide (z ≤ y))
  rw [hcount] at hpre
  have hfl : lengthFloor ⟨b.rank, b.size, b.length (b.size - 1), 0 :: st ++ [b.size], (List.range b.size).map (descentBits b), Io.table b⟩ y = ((0 :: st)[b.length y]?).getD 0 := by
    rw [lengthFloor]
    simp only [htake]
    rw [hpre, List.getLastD_eq_getLast?, List.getLast?_eq_getElem?, List.length_take, List.length_cons, h1, Nat.min_eq_left (by omega), Nat.add_sub_cancel, List.getElem?_take, if_pos (by omega)]
  rw [hfl]
  cases hl : b.length y with
  | zero => simp
  | succ n =>
    rw [List.getElem?_cons_succ]
    have hn : n < st.length := by omega
    rw [List.getElem?_eq_getElem hn, Option.getD_some]
    have := (h2 n _ (List.getElem?_eq_getElem hn)).2 x hx
    omega

/-- the primitive elements for the descents of `y`: those of less length than `y` come first, and there are others -/
theorem weak_split {b : Block} (hb : Writable b) {y : Nat} (hy : y < b.size) : ∃ w W2, ((List.range b.size).filter fun x => b.isPrimitive x (b.descentSet y)) = rowElements b y ++ w :: W2 ∧ w < b.size ∧ b.length y ≤ b.length w := by
  generalize hW : ((List.range b.size).filter fun x => b.isPrimitive x (b.descentSet y)) = W
  have hsplit : W = rowElements b y ++ W.filter fun x => !decide (b.length x < b.length y) := by
    have h1 := filter_split (fun x => decide (b.length x < b.length y)) W (by
      rw [← hW]
      refine List.Pairwise.filter _ ?_
      refine List.Pairwise.imp_of_mem ?_ (List.pairwise_lt_range (n := b.size))
      intro a c _ hcm hac h
      have := hb.lengths a c (by omega) (List.mem_range.1 hcm)
      simp at h ⊢
      omega)
    have h2 : W.filter (fun x => decide (b.length x < b.length y)) = rowElements b y := by
      rw [← hW, List.filter_filter, rowElements]
      congr 1
      funext x
      rw [Bool.and_comm]
    rw [h2] at h1
    exact h1
  have hyW : y ∈ W.filter fun x => !decide (b.length x < b.length y) := by
    rw [List.mem_filter, ← hW, List.mem_filter, List.mem_range]
    refine ⟨⟨hy, ?_⟩, by simp⟩
    rw [Block.isPrimitive, List.isEmpty_iff, List.filter_eq_nil_iff]
    intro s hs1 hs2
    simp only [Block.goodAscentSet, Block.descentSet, List.mem_filter, decide_eq_true_eq, Bool.and_eq_true, Bool.not_eq_true'] at hs1 hs2
    rw [hs2.2] at hs1
    simp at hs1
  obtain ⟨w, W2, hW2⟩ : ∃ w W2, (W.filter fun x => !decide (b.length x < b.length y)) = w :: W2 := by
    cases h : W.filter fun x => !decide (b.length x < b.length y) with
    | nil => rw [h] at hyW; simp at hyW
    | cons w W2 => exact ⟨w, W2, rfl⟩
  rw [hW2] at hsplit
  refine ⟨w, W2, hsplit, ?_⟩
  have hw : w ∈ W.filter fun x => !decide (b.length x < b.length y) := by rw [hW2]; simp
  rw [List.mem_filter, ← hW, List.mem_filter, List.mem_range] at hw
  exact ⟨hw.1.1, by simpa using hw.2⟩

theorem row_lt {b : Block} {y x : Nat} (h : x ∈ rowElements b y) : x < b.size ∧ b.length x < b.length y := by
  rw [rowElements, List.mem_filter, List.mem_range, Bool.and_eq_true, decide_eq_true_eq] at h
  exact ⟨h.1, h.2.2⟩

theorem nWords_eq (n : Nat) : nWords n = nChunks n := rfl

theorem setY_spec (nd : Bool) {b : Block} {cols : List (List Nat)} (ht : Table b cols) {m : MatInfo} {i : BlockInfo} (hm : m.block = i)
    (hw : ∀ y, y < b.size → i.prims y = .ok ((List.range b.size).filter fun x => b.isPrimitive x (b.descentSet y)))
    (hrow : ∀ (y : Nat) (col : List Nat), cols[y]? = some col → ∃ p rest, m.rowPos[y]? = some p ∧ m.file.drop p = rowTail col ++ rest)
    (hfl : ∀ y, y < b.size → ∀ x, x < b.size → (lengthFloor i y ≤ x ↔ b.length y ≤ b.length x))
    (hs : m.curY = undefBlock ∨ RowState cols b m) {y : Nat} (hy : y < b.size) :
    ∃ m', m.setY nd y = .ok m' ∧ m'.block = i ∧ m'.file = m.file ∧ m'.rowPos = m.rowPos ∧ m'.curY = y ∧ RowState cols b m' := by
  have hsz := ht.size
  by_cases hc : y = m.curY
  · refine ⟨m, by rw [MatInfo.setY, if_pos hc], hm, rfl, rfl, hc.symm, hs.resolve_left fun h => ?_⟩
    rw [← hc] at h
    simp only [undefBlock] at h
    omega
  · obtain ⟨col, hcol⟩ : ∃ col, cols[y]? = some col := ⟨_, List.getElem?_eq_getElem (by rw [ht.number]; exact hy)⟩
    obtain ⟨p, rest, hp, hf⟩ := hrow y col hcol
    have hcl := ht.columns y col hcol
    have hle : col.length ≤ b.size := by
      rw [hcl, rowElements]
      exact Nat.le_trans (List.length_filter_le _ _) (by simp)
    generalize hW : ((List.range b.size).filter fun x => b.isPrimitive x (b.descentSet y)) = W at hw
    obtain ⟨w, W2, hsplit, hwb, hwl⟩ := weak_split ht.block hy
    rw [hW] at hsplit
    have hsel : sel (primMap true col) W = sel (col.map fun c => decide (c ≠ 0)) (rowElements b y) ++ [w] := by
      have haux : ∀ (bits : List Bool) (ws : List Nat), bits.length = ws.length → sel (bits ++ [true]) (ws ++ w :: W2) = sel bits ws ++ [w] := by
        intro bits
        induction bits with
        | nil =>
          intro ws h
          have : ws = [] := List.length_eq_zero_iff.1 h.symm
          subst this
          simp [sel]
        | cons c bits ih =>
          intro ws h
          cases ws with
          | nil => simp at h
          | cons z ws =>
            rw [List.cons_append, List.cons_append, sel, sel, ih ws (by simpa using h)]
            cases c <;> simp
      rw [hsplit, primMap, if_pos rfl]
      exact haux _ _ (by rw [List.length_map, hcl])
    have r1 : readBytes 4 (m.file.drop p) = .ok (col.length + 1) := by
      rw [hf, rowTail, List.append_assoc]
      exact putInt_read (by omega) _
    have hd1 : m.file.drop (p + 4) = (chunks (nChunks (col.length + 1)) (primMap true col)).flatMap putInt ++ ((col.filter fun c => decide (c ≠ 0)).flatMap putInt ++ (putInt 1 ++ rest)) := by
      rw [← List.drop_drop, hf, rowTail, List.append_assoc, List.drop_left' (putInt_length _)]
      simp only [List.append_assoc]
    have hch := chunks_spec (nChunks (col.length + 1)) (primMap true col)
    have r2 : readMany 4 (nChunks (col.length + 1)) (m.file.drop (p + 4)) = .ok (chunks (nChunks (col.length + 1)) (primMap true col)) := by
      have := readMany_spec (chunks (nChunks (col.length + 1)) (primMap true col)) ((col.filter fun c => decide (c ≠ 0)).flatMap putInt ++ (putInt 1 ++ rest)) hch.2
      rw [hch.1] at this
      rw [hd1, this]
    have r3 : chunkLoop (chunks (nChunks (col.length + 1)) (primMap true col)) W = .ok (sel (col.map fun c => decide (c ≠ 0)) (rowElements b y) ++ [w]) := by
      rw [chunkLoop_spec _ _ _ (by rw [primMap_length, nChunks]; omega) (by rw [primMap_length, hsplit, List.length_append, hcl, List.length_cons]; omega), hsel]
    refine ⟨{ m with curY := y, strong := sel (col.map fun c => decide (c ≠ 0)) (rowElements b y) ++ [y], entries := p + 4 + 4 * nChunks (col.length + 1) }, ?_, hm, rfl, rfl, rfl, col, putInt 1 ++ rest, hcol, rfl, ?_⟩
    · have hwy := hw y hy
      rw [hW] at hwy
      rw [MatInfo.setY, if_neg hc, hm, hwy, Res.ok_bind]
      simp only [hp]
      rw [r1, Res.ok_bind, nWords_eq, r2, Res.ok_bind, r3, Res.ok_bind]
      have hfw : firstWeak i W y = some w := by
        rw [firstWeak, hsplit, List.find?_append, List.find?_eq_none.2, Option.none_or, List.find?_cons_of_pos]
        · simpa using (hfl y hy w hwb).2 hwl
        · intro x hx
          obtain ⟨x1, x2⟩ := row_lt hx
          have := hfl y hy x x1
          simp
          omega
      simp [hfw]
    · show m.file.drop (p + 4 + 4 * nChunks (col.length + 1)) = _
      rw [← List.drop_drop, hd1, List.drop_left' (by rw [flat_length, hch.1])]

/-- C94, for the corrected program: for all sequences of questions, each time the number of the polynomial is the one in the table that was written -/
theorem C94_find_corrected (nd nd' : Bool) (b : Block) (cols : List (List Nat)) (ht : Table b cols) (qs : List (Nat × Nat)) (hq : ∀ q ∈ qs, q.2 < b.size) :
    ∃ bf mf i m vs, writeBlock b = .ok bf ∧ writeMatrix nd true cols = .ok mf ∧ readBlock bf = .ok i ∧ openMatrix mf i = .ok m ∧ findAll nd' (b.size + 1) m qs = .ok vs ∧
      List.Forall₂ (fun q v => IsNumber b cols q.1 q.2 v) qs vs := by
  obtain ⟨bf, i, w1, w2, w3, -⟩ := C93_block b ht.block
  have hlen : ∀ col ∈ cols, col.length < 2 ^ 30 := by
    intro col hcol
    obtain ⟨y, hy⟩ := List.getElem?_of_mem hcol
    rw [ht.columns y col hy, rowElements]
    refine Nat.lt_of_le_of_lt (List.length_filter_le _ _) ?_
    simpa using ht.size
  have hne : cols ≠ [] := by
    intro h
    have h1 := ht.number
    have h2 := ht.block.pos
    rw [h, List.length_nil] at h1
    omega
  obtain ⟨mf, pos, m1, m2, m3⟩ := matrix_read nd cols hne hlen i (by rw [w3, ht.number])
  have hprims := C93_primitives b ht.block bf i w1 w2
  have hraise := C93_primitivize b ht.block bf i w1 w2
  suffices key : ∀ (qs : List (Nat × Nat)) (m : MatInfo), (∀ q ∈ qs, q.2 < b.size) → m.block = i → m.file = mf → m.rowPos = pos → (m.curY = undefBlock ∨ RowState cols b m) →
      ∃ vs, findAll nd' (b.size + 1) m qs = .ok vs ∧ List.Forall₂ (fun q v => IsNumber b cols q.1 q.2 v) qs vs by
    obtain ⟨vs, k1, k2⟩ := key qs ⟨mf, i, pos, undefBlock, [], 0⟩ hq rfl rfl rfl (.inl rfl)
    exact ⟨bf, mf, i, _, vs, w1, m1, w2, m2, k1, k2⟩
  intro qs
  induction qs with
  | nil => exact fun m _ _ _ _ _ => ⟨[], rfl, .nil⟩
  | cons q qs ih =>
    intro m hq hb hf hp hs
    have hy := hq q (by simp)
    obtain ⟨m', s1, s2, s3, s4, s5, s6⟩ := setY_spec nd' ht hb hprims (by rw [hp, hf]; exact m3) (fun y hy => floor_spec ht.block w1 w2 hy) hs hy
    obtain ⟨r, p1, p2, p3⟩ := hraise q.1 q.2 hy
    have hfind : ∃ v, m.find nd' (b.size + 1) q.1 q.2 = .ok (v, m') ∧ IsNumber b cols q.1 q.2 v := by
      obtain ⟨col, rest, c1, c2, c3⟩ := s6
      rw [s5] at c1 c2
      rw [MatInfo.find, s1, Res.ok_bind, s2, p1 _ (by omega), Res.ok_bind]
      by_cases hr : r ≥ q.2
      · rw [if_pos hr]
        refine ⟨_, rfl, r, col, p2, c1, ?_⟩
        by_cases he : r = q.2
        · exact .inr (.inl ⟨he, by rw [if_pos he]⟩)
        · exact .inl ⟨by omega, by rw [if_neg he]⟩
      · rw [if_neg hr]
        have hprim := p3.resolve_left (by omega)
        have hpw : (rowElements b q.2).Pairwise (· < ·) := List.Pairwise.filter _ List.pairwise_lt_range
        rcases search_spec col (rowElements b q.2) r q.2 hpw (ht.columns _ _ c1) (by omega) with ⟨a1, a2⟩ | ⟨k, a1, a2, a3⟩
        · refine ⟨0, ?_, r, col, p2, c1, .inr (.inr ⟨by omega, hprim, a1.symm⟩)⟩
          rw [← c2] at a2
          cases hg : m'.strong[m'.strong.findIdx fun z => decide (z ≥ r)]? with
          | none => rfl
          | some z =>
            have : z ≠ r := fun e => a2 (e ▸ List.mem_of_getElem? hg)
            simp only [if_pos this]
            rfl
        · refine ⟨polNr col (rowElements b q.2) r, ?_, r, col, p2, c1, .inr (.inr ⟨by omega, hprim, rfl⟩)⟩
          rw [← c2] at a1 a2
          have hE : ∀ c ∈ col.filter fun c => decide (c ≠ 0), c < 2 ^ 32 := fun c hc => ht.entries col (List.mem_of_getElem? c1) c (List.mem_filter.1 hc).1
          have hv := flat_get _ rest k _ hE a3
          rw [← c3, List.drop_drop] at hv
          simp only [a1, a2]
          rw [if_neg (by simp), hv]
          rfl
    obtain ⟨v, f1, f2⟩ := hfind
    obtain ⟨vs, g1, g2⟩ := ih m' (fun q' h => hq q' (by simp [h])) s2 (s3.trans hf) (s4.trans hp) (.inr s6)
    exact ⟨v :: vs, by rw [findAll, f1, Res.ok_bind, g1, Res.ok_bind, Res.pure_eq], .cons f2 g2⟩

/-- C94, numbers of primitive elements: those for a row are the primitive elements of less length, in order, then `y`; a number beyond is refused -/
theorem C94_primitive (b : Block) (hb : Writable b) (bf : List Nat) (m : MatInfo) (w1 : writeBlock b = .ok bf) (w2 : readBlock bf = .ok m.block) (k y : Nat) (hy : y < b.size) :
    m.primNr k y = match (((List.range b.size).filter fun x => b.isPrimitive x (b.descentSet y) && decide (b.length x < b.length y)) ++ [y])[k]? with
      | some x => .ok x
      | none => .throw := by
  have e : ((List.range b.size).filter fun x => b.isPrimitive x (b.descentSet y) && decide (b.length x < b.length y)) = rowElements b y := rfl
  rw [e]
  obtain ⟨w, W2, h1, h2, h3⟩ := weak_split hb hy
  have hfl := floor_spec hb w1 w2 hy
  have hlim : (rowElements b y ++ w :: W2).findIdx (fun x => decide (lengthFloor m.block y ≤ x)) = (rowElements b y).length := by
    have hn : ∀ x ∈ rowElements b y, decide (lengthFloor m.block y ≤ x) = false := by
      intro x hx
      obtain ⟨x1, x2⟩ := row_lt hx
      have := hfl x x1
      simp
      omega
    have hw : decide (lengthFloor m.block y ≤ w) = true := by simpa using (hfl w h2).2 h3
    generalize rowElements b y = R at hn
    induction R with
    | nil => rw [List.nil_append, List.findIdx_cons, hw]; rfl
    | cons a R ih =>
      rw [List.cons_append, List.findIdx_cons, hn a (by simp), ih fun x hx => hn x (by simp [hx])]
      rfl
  rw [MatInfo.primNr, C93_primitives b hb bf m.block w1 w2 y hy, Res.ok_bind, h1]
  simp only [hlim]
  by_cases hk : k < (rowElements b y).length
  · rw [if_pos hk, List.getElem?_append_left hk, List.getElem?_append_left hk, List.getElem?_eq_getElem hk]
    rfl
  · rw [if_neg hk]
    by_cases he : k = (rowElements b y).length
    · rw [if_pos he, he, List.getElem?_append_right (by omega)]
      simp
    · rw [if_neg he, List.getElem?_eq_none (by rw [List.length_append, List.length_singleton]; omega)]

example : (do
    let bf ← writeBlock exBlock2
    let i ← readBlock bf
    let m : MatInfo := ⟨[], i, [], undefBlock, [], 0⟩
    let x ← m.primNr 0 2
    let y ← m.primNr 1 2
    return (x, y, m.primNr 2 2)) = Res.ok (0, 2, .throw) := by decide +kernel

/-- the table of the block of `PGL(2,R)` -/
example : Table exBlock2 [[], [1], [1]] := by
  refine ⟨exBlock2_writable, by decide, rfl, ?_, by decide⟩
  intro y col h
  match y, h with
  | 0, h => cases h; decide +kernel
  | 1, h => cases h; decide +kernel
  | 2, h => cases h; decide +kernel
  | y + 3, h => simp at h

end Verif.Io
