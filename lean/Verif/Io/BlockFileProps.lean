import Verif.Io.BlockFile
import Verif.Io.FilesProps
/-
C93: files of blocks.
-/
namespace Verif.Io
open Verif KL

/-- blocks that can be written: elements are ordered by length, ascents lead upwards within the block, and numbers fit in the bytes used for them -/
structure Writable (b : Block) : Prop where
  pos : 0 < b.size
  size : b.size < 2 ^ 32 - 2
  rank : b.rank ≤ 32
  lengths : ∀ x y, x ≤ y → y < b.size → b.length x ≤ b.length y
  maxLength : b.length (b.size - 1) < 256
  cross : ∀ s x, s < b.rank → x < b.size → b.status s x = .complexAscent → ∃ z, b.crossImage s x = some z ∧ x < z ∧ z < b.size
  cayley : ∀ s x, s < b.rank → x < b.size → b.status s x = .imaginaryTypeI → ∃ z, (b.cayleyImage s x).1 = some z ∧ x < z ∧ z < b.size

theorem advance_spec {b : Block} (hb : Writable b) {l : Nat} (hl : l < b.length (b.size - 1)) : ∀ (k z : Nat), z + k = b.size → 0 < k → (∀ x, x < z → b.length x ≤ l) →
    ∃ z', advance b l k z = .ok z' ∧ z' < b.size ∧ ∀ x, x < b.size → (b.length x ≤ l ↔ x < z')
  | 0, _, _, h, _ => by omega
  | k + 1, z, hz, _, hx => by
    rw [advance]
    by_cases h : b.length z ≤ l
    · rw [if_pos h]
      have hk : 0 < k := by
        rcases Nat.eq_zero_or_pos k with rfl | hk
        · rw [show b.size - 1 = z by omega] at hl
          omega
        · exact hk
      refine advance_spec hb hl k (z + 1) (by omega) hk fun x h' => ?_
      by_cases e : x = z
      · rw [e]; exact h
      · exact hx x (by omega)
    · rw [if_neg h]
      refine ⟨z, rfl, by omega, fun x hxs => ⟨fun h' => ?_, hx x⟩⟩
      by_cases e : x < z
      · exact e
      · have := hb.lengths z x (by omega) hxs
        omega

theorem writeLengths_spec {b : Block} (hb : Writable b) : ∀ (k l z : Nat), l + k = b.length (b.size - 1) → z < b.size → (∀ x, x < z → b.length x ≤ l) →
    ∃ st : List Nat, st.length = k ∧ writeLengths b k l z = .ok (st.flatMap putInt) ∧ ∀ j e, st[j]? = some e → e < b.size ∧ ∀ x, x < b.size → (b.length x ≤ l + j ↔ x < e)
  | 0, l, z, _, hz, _ => ⟨[], rfl, by rw [writeLengths, if_pos hz]; rfl, by simp⟩
  | k + 1, l, z, hk, hz, hx => by
    obtain ⟨z', h1, h2, h3⟩ := advance_spec hb (l := l) (by omega) (b.size - z) z (by omega) (by omega) hx
    obtain ⟨st, h4, h5, h6⟩ := writeLengths_spec hb k (l + 1) z' (by omega) h2 (fun x h => by have := (h3 x (by omega)).2 h; omega)
    refine ⟨z' :: st, by rw [List.length_cons, h4], by rw [writeLengths, h1, Res.ok_bind, h5]; rfl, ?_⟩
    intro j e he
    cases j with
    | zero =>
      simp only [List.getElem?_cons_zero, Option.some.injEq] at he
      subst he
      exact ⟨h2, h3⟩
    | succ j =>
      have := h6 j e (by simpa using he)
      rw [show l + (j + 1) = l + 1 + j by omega]
      exact this

theorem bits_spec (f : Nat → Bool) : ∀ (n : Nat), (∀ s, Nat.testBit ((List.range n).foldl (fun d s => if f s then d ||| 2 ^ s else d) 0) s = (decide (s < n) && f s)) ∧ (List.range n).foldl (fun d s => if f s then d ||| 2 ^ s else d) 0 < 2 ^ n
  | 0 => by simp
  | n + 1 => by
    obtain ⟨h1, h2⟩ := bits_spec f n
    rw [List.range_succ, List.foldl_append, List.foldl_cons, List.foldl_nil]
    have hlt : (2 : Nat) ^ n < 2 ^ (n + 1) := Nat.pow_lt_pow_right (by omega) (by omega)
    by_cases hf : f n = true
    · rw [if_pos hf]
      refine ⟨fun s => ?_, Nat.or_lt_two_pow (by omega) hlt⟩
      rw [Nat.testBit_or, h1, Nat.testBit_two_pow]
      by_cases hs : s = n
      · subst hs; simp [hf]
      · have : decide (n = s) = false := by simp; omega
        rw [this, Bool.or_false]
        congr 1
        rw [Bool.eq_iff_iff]
        simp
        omega
    · rw [if_neg hf]
      refine ⟨fun s => ?_, by omega⟩
      rw [h1]
      by_cases hs : s = n
      · subst hs; simp [hf]
      · congr 1
        rw [Bool.eq_iff_iff]
        simp
        omega

theorem descentBits_bit (b : Block) (y s : Nat) : (descentBits b y).testBit s = (decide (s < b.rank) && isDescent (b.status s y)) := (bits_spec (fun s => isDescent (b.status s y)) b.rank).1 s

theorem descentBits_lt {b : Block} (hb : Writable b) (y : Nat) : descentBits b y < 2 ^ 32 :=
  Nat.lt_of_lt_of_le (bits_spec (fun s => isDescent (b.status s y)) b.rank).2 (Nat.pow_le_pow_right (by omega) hb.rank)

/-- what an entry of the table of ascents means -/
theorem entry_spec {b : Block} (hb : Writable b) {s x : Nat} (hs : s < b.rank) (hx : x < b.size) : (ascentEntry b x s = noGoodAscent ↔ ¬ (isDescent (b.status s x) = false ∧ b.status s x ≠ .imaginaryTypeII)) ∧ ascentEntry b x s < 2 ^ 32 ∧
    (ascentEntry b x s ≠ noGoodAscent → (b.status s x = .realNonparity ∧ ascentEntry b x s = undefBlock) ∨ (b.status s x = .complexAscent ∧ b.crossImage s x = some (ascentEntry b x s) ∧ x < ascentEntry b x s ∧ ascentEntry b x s < b.size) ∨
      (b.status s x = .imaginaryTypeI ∧ (b.cayleyImage s x).1 = some (ascentEntry b x s) ∧ x < ascentEntry b x s ∧ ascentEntry b x s < b.size)) := by
  have hsz := hb.size
  have c1 := hb.cross s x hs hx
  have c2 := hb.cayley s x hs hx
  unfold ascentEntry
  cases hst : b.status s x
  · obtain ⟨z, h1, h2, h3⟩ := c1 hst
    have e : isDescent Status.complexAscent = false := rfl
    simp [e, h1, encode, noGoodAscent, undefBlock]
    omega
  · have e : isDescent Status.realNonparity = false := rfl
    simp [e, noGoodAscent, undefBlock]
  · obtain ⟨z, h1, h2, h3⟩ := c2 hst
    have e : isDescent Status.imaginaryTypeI = false := rfl
    simp [e, Block.cayley, hst, h1, encode, noGoodAscent, undefBlock]
    omega
  all_goals simp [isDescent, Status.toNat, noGoodAscent, undefBlock]

theorem readTable_spec {rank : Nat} : ∀ (t : List (List Nat)) (rest : List Nat), (∀ a ∈ t, a.length = rank ∧ ∀ c ∈ a, c < 2 ^ 32) → readTable rank t.length (t.flatMap (fun a => a.flatMap putInt) ++ rest) = .ok t
  | [], _, _ => rfl
  | a :: t, rest, h => by
    obtain ⟨h1, h2⟩ := h a (by simp)
    have hl : (a.flatMap putInt).length = 4 * rank := by
      rw [← h1]
      clear h h1 h2
      induction a with
      | nil => rfl
      | cons c a ih => rw [List.flatMap_cons, List.length_append, ih, putInt_length, List.length_cons]; omega
    rw [List.length_cons, readTable, List.flatMap_cons, List.append_assoc]
    have := readMany_spec a (t.flatMap (fun a => a.flatMap putInt) ++ rest) h2
    rw [h1] at this
    rw [this, Res.ok_bind, List.drop_left' hl, readTable_spec t rest (fun c hc => h c (by simp [hc])), Res.ok_bind, Res.pure_eq]

theorem flat_length (l : List Nat) : (l.flatMap putInt).length = 4 * l.length := by
  induction l with
  | nil => rfl
  | cons c a ih => rw [List.flatMap_cons, List.length_append, ih, putInt_length, List.length_cons]; omega

/-- the table of ascents of a block -/
def table (b : Block) : List (List Nat) := (List.range b.size).map fun x => (List.range b.rank).map (ascentEntry b x)

theorem file_read {b : Block} (hb : Writable b) : ∃ st : List Nat, st.length = b.length (b.size - 1) ∧ (∀ j e, st[j]? = some e → e < b.size ∧ ∀ x, x < b.size → (b.length x ≤ j ↔ x < e)) ∧
    ∃ file, writeBlock b = .ok file ∧ readBlock file = .ok ⟨b.rank, b.size, b.length (b.size - 1), 0 :: st ++ [b.size], (List.range b.size).map (descentBits b), table b⟩ := by
  obtain ⟨st, h1, h2, h3⟩ := writeLengths_spec hb (b.length (b.size - 1)) 0 0 (by omega) hb.pos (by intro x h; omega)
  have hm := Nat.mod_eq_of_lt hb.maxLength
  have hr : b.rank % 256 = b.rank := Nat.mod_eq_of_lt (by have := hb.rank; omega)
  have hsz := hb.size
  refine ⟨st, h1, fun j e he => by simpa using h3 j e he, _, by rw [writeBlock, if_neg (by have := hb.pos; omega), hm, h2, Res.ok_bind, Res.pure_eq], ?_⟩
  have hd : (List.range b.size).flatMap (fun y => putInt (descentBits b y)) = ((List.range b.size).map (descentBits b)).flatMap putInt := by rw [List.flatMap_map]
  have ht : ((List.range b.size).flatMap fun x => (List.range b.rank).flatMap fun s => putInt (ascentEntry b x s)) = (table b).flatMap (fun a => a.flatMap putInt) := by
    rw [table, List.flatMap_map]
    congr 1
    funext x
    rw [List.flatMap_map]
  rw [hd, ht, hr]
  generalize hD : (List.range b.size).map (descentBits b) = D
  have hDl : D.length = b.size := by rw [← hD]; simp
  have hDb : ∀ c ∈ D, c < 2 ^ 32 := by
    intro c hc
    rw [← hD] at hc
    obtain ⟨y, -, rfl⟩ := List.mem_map.1 hc
    exact descentBits_lt hb y
  have hstb : ∀ c ∈ st, c < 2 ^ 32 := by
    intro c hc
    obtain ⟨j, hj⟩ := List.getElem?_of_mem hc
    have := (h3 j c hj).1
    omega
  have hT : ∀ a ∈ table b, a.length = b.rank ∧ ∀ c ∈ a, c < 2 ^ 32 := by
    intro a ha
    obtain ⟨x, hx, rfl⟩ := List.mem_map.1 ha
    refine ⟨by simp, fun c hc => ?_⟩
    obtain ⟨s, hs, rfl⟩ := List.mem_map.1 hc
    exact (entry_spec hb (List.mem_range.1 hs) (List.mem_range.1 hx)).2.1
  have hTl : (table b).length = b.size := by simp [table]
  generalize hm' : b.length (b.size - 1) = m at h1 hm ⊢
  have e1 : ∀ t, (putInt b.size ++ [b.rank] ++ [m] ++ t).drop 6 = t := fun t => List.drop_left' (by simp [putInt_length])
  have e0 : putInt b.size ++ [b.rank] ++ [m] ++ st.flatMap putInt ++ D.flatMap putInt ++ (table b).flatMap (fun a => a.flatMap putInt) =
      putInt b.size ++ [b.rank] ++ [m] ++ (st.flatMap putInt ++ (D.flatMap putInt ++ ((table b).flatMap (fun a => a.flatMap putInt) ++ []))) := by simp
  rw [e0, readBlock]
  have r1 : readBytes 4 (putInt b.size ++ [b.rank] ++ [m] ++ (st.flatMap putInt ++ (D.flatMap putInt ++ ((table b).flatMap (fun a => a.flatMap putInt) ++ [])))) = .ok b.size := by
    rw [List.append_assoc, List.append_assoc]
    exact putInt_read (by omega) _
  have r2 : ∀ t, readBytes 1 ((putInt b.size ++ [b.rank] ++ [m] ++ t).drop 4) = .ok b.rank := by
    intro t
    rw [List.append_assoc, List.append_assoc, List.drop_left' (putInt_length _)]
    rfl
  have r3 : ∀ t, readBytes 1 ((putInt b.size ++ [b.rank] ++ [m] ++ t).drop 5) = .ok m := by
    intro t
    rw [List.append_assoc, List.drop_left' (by simp [putInt_length])]
    rfl
  rw [r1, Res.ok_bind, r2, Res.ok_bind, r3, Res.ok_bind, e1]
  have r4 := readMany_spec st (D.flatMap putInt ++ ((table b).flatMap (fun a => a.flatMap putInt) ++ [])) hstb
  rw [h1] at r4
  rw [r4, Res.ok_bind, ← List.drop_drop, e1, List.drop_left' (by rw [flat_length, h1])]
  have r5 := readMany_spec D ((table b).flatMap (fun a => a.flatMap putInt) ++ []) hDb
  rw [hDl] at r5
  rw [r5, Res.ok_bind, show 6 + 4 * m + 4 * b.size = 6 + (4 * m + 4 * b.size) by omega, ← List.drop_drop, e1, ← List.drop_drop, List.drop_left' (by rw [flat_length, h1]), List.drop_left' (by rw [flat_length, hDl])]
  have r6 := readTable_spec (table b) [] hT
  rw [hTl] at r6
  rw [r6, Res.ok_bind, Res.pure_eq]

theorem takeWhile_count (y : Nat) : ∀ (l : List Nat) (n : Nat), n ≤ l.length → (∀ j e, l[j]? = some e → (e ≤ y ↔ j < n)) → (l.takeWhile fun z => decide (z ≤ y)).length = n
  | [], n, h, _ => by simp at h; simp [h]
  | a :: l, 0, _, h => by
    have := h 0 a rfl
    rw [List.takeWhile_cons_of_neg (by simp; omega)]
    rfl
  | a :: l, n + 1, hn, h => by
    have := h 0 a rfl
    rw [List.takeWhile_cons_of_pos (by simp; omega), List.length_cons, takeWhile_count y l n (by simpa using hn) (fun j e hj => by have := h (j + 1) e (by simpa using hj); omega)]

/-- C93, files of blocks: what is read is the block that was written, in particular the sizes, the length of each element and the descents -/
theorem C93_block (b : Block) (hb : Writable b) : ∃ file i, writeBlock b = .ok file ∧ readBlock file = .ok i ∧ i.size = b.size ∧ i.rank = b.rank ∧ i.maxLength = b.length (b.size - 1) ∧
    (∀ y, y < b.size → i.length y = b.length y) ∧ ∀ y, y < b.size → ∃ d, i.descent[y]? = some d ∧ ∀ s, d.testBit s = true ↔ s < b.rank ∧ (b.status s y).isDescent = true := by
  obtain ⟨st, h1, h2, file, h3, h4⟩ := file_read hb
  refine ⟨file, _, h3, h4, rfl, rfl, rfl, ?_, ?_⟩
  · intro y hy
    have hmax := hb.lengths y (b.size - 1) (by omega) (by omega)
    have : ((0 :: st ++ [b.size]).takeWhile fun z => decide (z ≤ y)).length = b.length y + 1 := by
      refine takeWhile_count y _ _ (by simp [h1]; omega) ?_
      intro j e hj
      cases j with
      | zero =>
        simp at hj
        omega
      | succ j =>
        rw [List.cons_append, List.getElem?_cons_succ] at hj
        by_cases hlt : j < st.length
        · rw [List.getElem?_append_left hlt] at hj
          have := (h2 j e hj).2 y hy
          omega
        · have hj' : j = st.length := by
            have := (List.getElem?_eq_some_iff.1 hj).1
            simp at this
            omega
          rw [List.getElem?_append_right (by omega), hj'] at hj
          simp at hj
          omega
    show ((0 :: st ++ [b.size]).takeWhile fun z => decide (z ≤ y)).length - 1 = _
    omega
  · intro y hy
    refine ⟨descentBits b y, by simp [hy], fun s => ?_⟩
    rw [descentBits_bit, Bool.and_eq_true, decide_eq_true_eq]
    have : isDescent (b.status s y) = (b.status s y).isDescent := by cases b.status s y <;> rfl
    rw [this]

theorem raise_spec (d : Nat) (ax : List Nat) : ∀ (k s : Nat), match raise d ax k s with
    | some z => ∃ t, s ≤ t ∧ t < s + k ∧ d.testBit t = true ∧ ax.getD t 0 = z ∧ z ≠ noGoodAscent
    | none => ∀ t, s ≤ t → t < s + k → d.testBit t = true → ax.getD t 0 = noGoodAscent
  | 0, s => by
    rw [raise]
    intro t h1 h2
    omega
  | k + 1, s => by
    rw [raise]
    by_cases h : (d.testBit s && decide (ax.getD s 0 ≠ noGoodAscent)) = true
    · rw [if_pos h]
      rw [Bool.and_eq_true, decide_eq_true_eq] at h
      exact ⟨s, by omega, by omega, h.1, rfl, h.2⟩
    · rw [if_neg h]
      have hi := raise_spec d ax k (s + 1)
      cases hr : raise d ax k (s + 1) with
      | some z =>
        rw [hr] at hi
        obtain ⟨t, h1, h2, h3⟩ := hi
        exact ⟨t, by omega, by omega, h3⟩
      | none =>
        rw [hr] at hi
        intro t h1 h2 h3
        by_cases ht : t = s
        · subst ht
          rw [Bool.and_eq_true, decide_eq_true_eq] at h
          exact Classical.byContradiction fun hc => h ⟨h3, hc⟩
        · exact hi t (by omega) (by omega) h3

/-- a step to a higher element: by an ascent of `x` that is a descent of `y`; for real nonparity ascents there is none, which is shown as `UndefBlock` -/
inductive Ascends (b : Block) (y : Nat) : Nat → Nat → Prop
  | none {s x : Nat} : s < b.rank → (b.status s y).isDescent = true → b.status s x = .realNonparity → Ascends b y x undefBlock
  | complex {s x z : Nat} : s < b.rank → (b.status s y).isDescent = true → b.status s x = .complexAscent → b.crossImage s x = some z → Ascends b y x z
  | imaginary {s x z : Nat} : s < b.rank → (b.status s y).isDescent = true → b.status s x = .imaginaryTypeI → (b.cayleyImage s x).1 = some z → Ascends b y x z

/-- several such steps, each from an element below `y` -/
inductive Reaches (b : Block) (y : Nat) : Nat → Nat → Prop
  | refl (x : Nat) : Reaches b y x x
  | step {x z w : Nat} : x < y → Ascends b y x z → Reaches b y z w → Reaches b y x w

theorem table_get {b : Block} {x : Nat} (hx : x < b.size) : (table b)[x]? = some ((List.range b.rank).map (ascentEntry b x)) := by
  rw [table]
  simp [hx]

theorem entry_get {b : Block} {x s : Nat} (hs : s < b.rank) : ((List.range b.rank).map (ascentEntry b x)).getD s 0 = ascentEntry b x s := by
  simp [List.getD_eq_getElem?_getD, hs]

theorem prim_iff {b : Block} (hb : Writable b) {x : Nat} (hx : x < b.size) (y : Nat) : raise (descentBits b y) ((List.range b.rank).map (ascentEntry b x)) b.rank 0 = none ↔ b.isPrimitive x (b.descentSet y) = true := by
  have hr := raise_spec (descentBits b y) ((List.range b.rank).map (ascentEntry b x)) b.rank 0
  have hp : b.isPrimitive x (b.descentSet y) = true ↔ ∀ s, s < b.rank → isDescent (b.status s y) = true → ¬ (isDescent (b.status s x) = false ∧ b.status s x ≠ .imaginaryTypeII) := by
    rw [Block.isPrimitive, List.isEmpty_iff, List.filter_eq_nil_iff]
    simp only [Block.goodAscentSet, Block.descentSet, List.mem_filter, List.mem_range, decide_eq_true_eq, Bool.and_eq_true, Bool.not_eq_true']
    constructor
    · exact fun h s hs hd hg => h s ⟨hs, hg⟩ ⟨hs, hd⟩
    · exact fun h s hs hd => h s hs.1 hd.2 hs.2
  rw [hp]
  cases hc : raise (descentBits b y) ((List.range b.rank).map (ascentEntry b x)) b.rank 0 with
  | some z =>
    rw [hc] at hr
    obtain ⟨t, -, h2, h3, h4, h5⟩ := hr
    have ht : t < b.rank := by omega
    rw [entry_get ht] at h4
    rw [descentBits_bit, Bool.and_eq_true] at h3
    refine ⟨fun h => by simp at h, fun h => ?_⟩
    exact (h5 (h4 ▸ ((entry_spec hb ht hx).1.2 (h t ht h3.2)))).elim
  | none =>
    rw [hc] at hr
    refine ⟨fun _ s hs hd => ?_, fun _ => rfl⟩
    have := hr s (by omega) (by omega) (by rw [descentBits_bit, hd]; simp [hs])
    rw [entry_get hs] at this
    exact (entry_spec hb hs hx).1.1 this

/-- C93, primitive elements: those read from the file are those of the block -/
theorem C93_primitives (b : Block) (hb : Writable b) (file : List Nat) (i : BlockInfo) (hw : writeBlock b = .ok file) (hi : readBlock file = .ok i) (y : Nat) (hy : y < b.size) :
    i.prims y = .ok ((List.range b.size).filter fun x => b.isPrimitive x (b.descentSet y)) := by
  obtain ⟨st, h1, h2, file', h3, h4⟩ := file_read hb
  rw [hw] at h3
  cases h3
  rw [hi] at h4
  cases h4
  rw [BlockInfo.prims]
  have : ((List.range b.size).map (descentBits b))[y]? = some (descentBits b y) := by simp [hy]
  simp only [this]
  congr 1
  refine List.filter_congr fun x hx => ?_
  have hx := List.mem_range.1 hx
  rw [BlockInfo.isPrimitive]
  simp only [table_get hx]
  rw [Bool.eq_iff_iff, ← prim_iff hb hx, Option.isNone_iff_eq_none, List.length_map, List.length_range]

/-- C93, raising of an element: the computation ends, with an element reached by ascents that are descents of `y`, and it is primitive for `y` unless it is not below `y` -/
theorem C93_primitivize (b : Block) (hb : Writable b) (file : List Nat) (i : BlockInfo) (hw : writeBlock b = .ok file) (hi : readBlock file = .ok i) (x y : Nat) (hy : y < b.size) :
    ∃ r, (∀ fuel, y + 1 ≤ fuel → i.primitivize fuel x y = .ok r) ∧ Reaches b y x r ∧ (y ≤ r ∨ b.isPrimitive r (b.descentSet y) = true) := by
  obtain ⟨st, h1, h2, file', h3, h4⟩ := file_read hb
  rw [hw] at h3
  cases h3
  rw [hi] at h4
  cases h4
  have hdes : ((List.range b.size).map (descentBits b))[y]? = some (descentBits b y) := by simp [hy]
  suffices key : ∀ (n x : Nat), y ≤ x + n → ∃ r, (∀ fuel, n + 1 ≤ fuel → primLoop ⟨b.rank, b.size, b.length (b.size - 1), 0 :: st ++ [b.size], (List.range b.size).map (descentBits b), table b⟩ (descentBits b y) y fuel x = .ok r) ∧ Reaches b y x r ∧ (y ≤ r ∨ b.isPrimitive r (b.descentSet y) = true) by
    obtain ⟨r, k1, k2⟩ := key y x (by omega)
    refine ⟨r, fun fuel hf => ?_, k2⟩
    rw [BlockInfo.primitivize]
    simp only [hdes]
    exact k1 fuel hf
  intro n
  induction n with
  | zero =>
    intro x hx
    refine ⟨x, fun fuel hf => ?_, .refl x, .inl (by omega)⟩
    obtain ⟨k, rfl⟩ : ∃ k, fuel = k + 1 := ⟨fuel - 1, by omega⟩
    rw [primLoop, if_pos (by omega)]
  | succ n ih =>
    intro x hx
    by_cases hxy : x ≥ y
    · refine ⟨x, fun fuel hf => ?_, .refl x, .inl (by omega)⟩
      obtain ⟨k, rfl⟩ : ∃ k, fuel = k + 1 := ⟨fuel - 1, by omega⟩
      rw [primLoop, if_pos hxy]
    · have hxs : x < b.size := by omega
      have hr := raise_spec (descentBits b y) ((List.range b.rank).map (ascentEntry b x)) b.rank 0
      have hp := prim_iff hb hxs y
      cases hc : raise (descentBits b y) ((List.range b.rank).map (ascentEntry b x)) b.rank 0 with
      | none =>
        refine ⟨x, fun fuel hf => ?_, .refl x, .inr (hp.1 hc)⟩
        obtain ⟨k, rfl⟩ : ∃ k, fuel = k + 1 := ⟨fuel - 1, by omega⟩
        rw [primLoop, if_neg hxy]
        simp only [table_get hxs, hc]
      | some z =>
        rw [hc] at hr
        obtain ⟨t, -, g2, g3, g4, g5⟩ := hr
        have ht : t < b.rank := by omega
        rw [entry_get ht] at g4
        subst g4
        rw [descentBits_bit, Bool.and_eq_true] at g3
        have gd : (b.status t y).isDescent = true := by
          have : isDescent (b.status t y) = (b.status t y).isDescent := by cases b.status t y <;> rfl
          rw [← this]; exact g3.2
        have hup : Ascends b y x (ascentEntry b x t) ∧ x < ascentEntry b x t := by
          rcases (entry_spec hb ht hxs).2.2 g5 with ⟨a1, a2⟩ | ⟨a1, a2, a3, -⟩ | ⟨a1, a2, a3, -⟩
          · rw [a2]
            refine ⟨.none ht gd a1, ?_⟩
            have := hb.size
            rw [undefBlock]
            omega
          · exact ⟨.complex ht gd a1 a2, a3⟩
          · exact ⟨.imaginary ht gd a1 a2, a3⟩
        obtain ⟨r, k1, k2, k3⟩ := ih (ascentEntry b x t) (by have := hup.2; omega)
        refine ⟨r, fun fuel hf => ?_, .step (by omega) hup.1 k2, k3⟩
        obtain ⟨k, rfl⟩ : ∃ k, fuel = k + 1 := ⟨fuel - 1, by omega⟩
        rw [primLoop, if_neg hxy]
        simp only [table_get hxs, hc]
        exact k1 k (by omega)

/-- the block of the trivial representation of the split form of rank 1: two elements of length 0 and one of length 1 -/
def exBlock : Block where
  rank := 1
  size := 3
  length := fun x => if x = 2 then 1 else 0
  status := fun _ x => if x = 2 then .realTypeI else .imaginaryTypeI
  crossImage := fun _ x => if x = 0 then some 1 else if x = 1 then some 0 else some 2
  cayleyImage := fun _ x => if x = 2 then (some 0, some 1) else (some 2, none)

example : Writable exBlock := by
  refine ⟨by decide, by decide, by decide, ?_, by decide, ?_, ?_⟩
  · intro x y h1 h2
    have h2 : y < 3 := h2
    show (if x = 2 then 1 else 0) ≤ (if y = 2 then 1 else 0)
    split <;> split <;> omega
  · intro s x _ _ h
    have h : (if x = 2 then Status.realTypeI else Status.imaginaryTypeI) = .complexAscent := h
    split at h <;> cases h
  · intro s x _ hx h
    have hx : x < 3 := hx
    have h : (if x = 2 then Status.realTypeI else Status.imaginaryTypeI) = .imaginaryTypeI := h
    by_cases h2 : x = 2
    · rw [if_pos h2] at h; cases h
    · refine ⟨2, ?_, by omega, by decide⟩
      show (if x = 2 then (some 0, some 1) else (some 2, none)).1 = some 2
      rw [if_neg h2]

example : (do
    let file ← writeBlock exBlock
    let i ← readBlock file
    let r ← i.primitivize 3 0 2
    let l ← i.prims 2
    return (file.length, i.startLength, r, l)) = Res.ok (34, [0, 2, 3], 2, [2]) := by decide +kernel

end Verif.Io
