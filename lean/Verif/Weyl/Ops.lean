import Verif.Weyl.Group
import Verif.Weyl.NF
/-
The functions of `WeylGroup` in terms of the action of generators on sequences of pieces.
-/
namespace Verif.Weyl
open Verif

/-- the pieces of an element -/
def fn (l : List Nat) : Nat → Nat := fun i => l.getD i 0

/-- the element with given pieces -/
def toL (w : Nat → Nat) : List Nat := (List.range rankMax).map w

theorem toL_length (w : Nat → Nat) : (toL w).length = rankMax := by simp [toL]

theorem toL_fn {l : List Nat} (h : l.length = rankMax) : toL (fn l) = l := by
  apply List.ext_getElem
  · rw [toL_length, h]
  · intro i h1 h2
    simp [toL, fn, h2]

theorem fn_toL {w : Nat → Nat} (h : ∀ i, rankMax ≤ i → w i = 0) : fn (toL w) = w := by
  funext i
  by_cases hi : i < rankMax
  · simp [toL, fn, hi]
  · simp [toL, fn, hi, h i (by omega)]

theorem get_toL (w : Nat → Nat) {i : Nat} (hi : i < rankMax) : Vec.get (toL w) i = .ok (w i) := by
  rw [Vec.get_ok (by rw [toL_length]; exact hi)]
  simp [toL]

theorem put_toL (w : Nat → Nat) {i : Nat} (hi : i < rankMax) (x : Nat) : Vec.put (toL w) i x = .ok (toL (Function.update w i x)) := by
  rw [Vec.put_ok (by rw [toL_length]; exact hi)]
  congr 1
  apply List.ext_getElem
  · simp [toL]
  · intro j h1 h2
    simp only [toL, List.getElem_set, List.getElem_map, List.getElem_range, Function.update_apply]
    by_cases h : i = j
    · rw [if_pos h, if_pos h.symm]
    · rw [if_neg h, if_neg (Ne.symm h)]

theorem toL_congr {w w' : Nat → Nat} (h : ∀ i < rankMax, w i = w' i) : toL w = toL w' := by
  unfold toL
  apply List.map_congr_left
  intro i hi
  exact h i (List.mem_range.1 hi)

theorem get_of_some {α : Type} {l : List α} {i : Nat} {x : α} (h : l[i]? = some x) : Vec.get l i = .ok x := by
  rw [Vec.get, h]

theorem toL_zero : WG.one = toL fun _ => 0 := by
  apply List.ext_getElem
  · simp [WG.one, toL]
  · intro j h1 h2; simp [WG.one, toL]

/-- a `WeylGroup` in terms of its transducers and its internal numbering -/
structure WGood (W : WG) (S : Sys) (num : Fin S.n ≃ Fin S.n) : Prop where
  ok : S.OK
  n_le : S.n ≤ rankMax
  rank : W.rank = S.n
  two_le : ∀ i < S.n, ∀ j < S.n, i ≠ j → 2 ≤ S.cox i j
  tr : ∀ i < S.n, W.tr[i]? = some ⟨S.off i, S.T i⟩
  upper : ∀ i < S.n, W.upper[i]? = some (S.top i)
  din : ∀ s : Fin S.n, W.din[(s : Nat)]? = some (num s : Nat)
  dout : ∀ s : Fin S.n, W.dout[(s : Nat)]? = some (num.symm s : Nat)
  star : ∀ s < S.n, ∃ t, W.minStar[s]? = some t ∧ S.off s ≤ t ∧ t ≤ s ∧ ∀ i < t, S.cox i s = 2

/-! ### transducers -/

section
variable {M : Nat → Nat → Nat} {r : Nat} {T : Transducer} (hg : T.Good M r)
include hg

theorem look_ok (nd : Bool) {x s : Nat} (hx : x < T.n) (hs : s < r + 1) : T.look nd x s = .ok (T.ent x s) := by
  have hl := hg.limit
  rw [Transducer.look, Res.assertIn_bind nd (by simpa using hx), Res.assertIn_bind nd (by simpa [hl] using hs), if_pos ⟨hx, by omega⟩]
  rfl

theorem unshift_ok (nd : Bool) {x : Nat} (hx : x < T.n) (h0 : 0 < x) : T.unshift nd x = .ok (T.right x, T.ent x (T.right x)) := by
  obtain ⟨h1, h2⟩ := hg.right_le x hx h0
  have := hg.limit
  have := hg.small
  have := hg.two_le
  rw [Transducer.unshift, if_pos hx, Res.assertIn_bind nd (decide_eq_true (by unfold undef; omega)), Transducer.shift,
    look_ok hg nd hx h1, Res.ok_bind, Res.assertIn_bind nd (by rw [decide_eq_true_eq]; omega), Res.pure_eq, Res.ok_bind,
    Res.assertIn_bind nd (by rw [decide_eq_true_eq]; omega)]
  rfl

theorem len_le {x y : Nat} (hy : y < T.n) (h : x ≤ y) : T.len x ≤ T.len y := by
  induction y with
  | zero => rw [show x = 0 by omega]
  | succ y ih =>
    by_cases he : x = y + 1
    · rw [he]
    · exact Nat.le_trans (ih (by omega) (by omega)) (hg.len_mono y hy)

theorem stackLoop_ok (nd : Bool) {f x : Nat} (hx : x < T.n) (hf : x < f) (stack : List Nat) (hl : T.len x + stack.length ≤ 63) :
    T.stackLoop nd f x stack = .ok (pword T x ++ stack) := by
  induction f generalizing x stack with
  | zero => omega
  | succ f ih =>
    rw [Transducer.stackLoop]
    by_cases h0 : x > 0
    · obtain ⟨h1, h2⟩ := hg.right_le x hx h0
      have e1 := pword_length hg hx
      have e2 := pword_length hg (by omega : T.ent x (T.right x) < T.n)
      have e3 := pword_pos hg hx h0
      rw [e3, List.length_append, e2] at e1
      simp only [List.length_cons, List.length_nil] at e1
      rw [if_pos h0, unshift_ok hg nd hx h0, Res.ok_bind]
      simp only
      rw [if_pos (by unfold Transducer.maxPieceLength; omega), ih (by omega) (by omega) _ (by rw [List.length_cons]; omega), e3]
      simp
    · rw [if_neg h0, show x = 0 by omega, pword_zero]
      rfl

theorem letters_ok (nd : Bool) {x : Nat} (hx : x < T.n) : T.letters nd x = .ok (pword T x) := by
  have := hg.small
  have h1 := len_le hg (y := T.n - 1) (x := x) (by omega) (by omega)
  have h2 := hg.len_le
  rw [Transducer.letters, stackLoop_ok hg nd hx (by omega) [] (by simp only [List.length_nil]; omega), List.append_nil]

/-- a function applied to the letters of a word, from right to left -/
def foldRev {α : Type} (f : α → Nat → Res α) : List Nat → α → Res α
  | [], a => .ok a
  | s :: l, a => do foldRev f l (← f a s)

theorem unwind_ok {α : Type} (nd : Bool) (f : α → Nat → Res α) {k x : Nat} (hx : x < T.n) (hk : x < k) (a : α) :
    T.unwind nd f k x a = foldRev f (pword T x).reverse a := by
  induction k generalizing x a with
  | zero => omega
  | succ k ih =>
    rw [Transducer.unwind]
    by_cases h0 : x > 0
    · obtain ⟨h1, h2⟩ := hg.right_le x hx h0
      rw [if_pos h0, unshift_ok hg nd hx h0, Res.ok_bind, pword_pos hg hx h0, List.reverse_append]
      simp only [List.reverse_cons, List.reverse_nil, List.nil_append, List.cons_append, foldRev]
      congr 1
      funext b
      exact ih (by omega) (by omega) b
    · rw [if_neg h0, show x = 0 by omega, pword_zero]
      rfl

end

/-! ### right multiplication -/

section
variable {W : WG} {S : Sys} {num : Fin S.n ≃ Fin S.n} (hW : WGood W S num)
include hW

theorem WGood.valid_zero {w : Nat → Nat} (hw : S.Valid w) : ∀ i, rankMax ≤ i → w i = 0 :=
  fun i hi => hw.2 i (Nat.le_trans hW.n_le hi)

theorem transduce_ok (nd : Bool) {o : Nat} (ho : o < S.n) {r : Nat} (hr : r < S.size o) {s : Nat} (hs : s < r + 1) {w : Nat → Nat}
    (hw : S.Valid w) : W.transduce nd (S.off o + r) s (toL w) =
      .ok (toL (tact S.T (S.off o) (r + 1) s w), tsgn S.T (S.off o) (r + 1) s w) := by
  have hS := hW.ok
  have h1 := hS.off_le o ho
  have h2 := hS.le_top o ho
  have h3 := hS.top_lt o ho
  have h4 := hW.n_le
  induction r generalizing s with
  | zero =>
    have hr' := hr
    unfold Sys.size at hr'
    have e := (hS.same o ho (S.off o + 0) (by omega) (by omega)).1
    have hg := hS.comp_good ho 0 hr
    have hwr := hw.1 (S.off o + 0) (by omega)
    have hlt := hg.lt _ hwr s hs
    have hc : (S.T (S.off o + 0)).ent (w (S.off o + 0)) s < (S.T (S.off o + 0)).n := by omega
    rw [tact, tsgn, if_pos hc, if_pos hc]
    rw [Nat.add_zero] at hc hg hwr ⊢
    generalize hi : S.off o = i at *
    cases i with
    | zero =>
      rw [WG.transduce, get_of_some (hW.tr _ (by omega)), Res.ok_bind, get_toL w (by omega), Res.ok_bind, look_ok hg nd hwr hs,
        Res.ok_bind, if_pos hc, put_toL w (by omega), Res.ok_bind]
      rfl
    | succ i =>
      rw [WG.transduce, get_of_some (hW.tr _ (by omega)), Res.ok_bind, get_toL w (by omega), Res.ok_bind, look_ok hg nd hwr hs,
        Res.ok_bind, if_pos hc, put_toL w (by omega), Res.ok_bind]
      rfl
  | succ r ih =>
    have hr' := hr
    unfold Sys.size at hr'
    have hg := hS.comp_good ho (r + 1) hr
    have hwr := hw.1 (S.off o + (r + 1)) (by omega)
    have hlt := hg.lt _ hwr s hs
    rw [tact, tsgn, ← Nat.add_assoc, WG.transduce]
    rw [← Nat.add_assoc] at hg hwr hlt
    rw [get_of_some (hW.tr _ (by omega)), Res.ok_bind, get_toL w (by omega), Res.ok_bind, look_ok hg nd hwr hs, Res.ok_bind]
    by_cases hc : (S.T (S.off o + r + 1)).ent (w (S.off o + r + 1)) s < (S.T (S.off o + r + 1)).n
    · rw [if_pos hc, if_pos hc, if_pos hc, put_toL w (by omega), Res.ok_bind]
      rfl
    · have hlt2 : (S.T (S.off o + r + 1)).ent (w (S.off o + r + 1)) s - (S.T (S.off o + r + 1)).n < r + 1 := by omega
      rw [if_neg hc, if_neg hc, if_neg hc, ih (by omega) hlt2]

theorem transduce_R (nd : Bool) {i : Nat} (hi : i < S.n) {s : Nat} (hs : s < S.size i) {w : Nat → Nat} (hw : S.Valid w) :
    W.transduce nd (S.top i) s (toL w) = .ok (toL (S.R (S.off i + s) w), S.sgn (S.off i + s) w) := by
  have hS := hW.ok
  have h1 := hS.off_le i hi
  have h2 := hS.le_top i hi
  have hs' := hs
  unfold Sys.size at hs'
  obtain ⟨e1, e2⟩ := hS.same i hi (S.off i + s) (by omega) (by omega)
  have e3 : S.size (S.off i + s) = S.size i := by unfold Sys.size; rw [e1, e2]
  have e4 : S.top i = S.off i + (S.size i - 1) := by unfold Sys.size; omega
  rw [Sys.R, Sys.sgn, e1, e3, Nat.add_sub_cancel_left, e4, transduce_ok hW nd hi (by omega) (by omega) hw,
    show S.size i - 1 + 1 = S.size i by omega]

theorem innerMult_ok (nd : Bool) {s : Nat} (hs : s < S.n) {w : Nat → Nat} (hw : S.Valid w) :
    W.innerMult nd (toL w) s = .ok (toL (S.R s w), S.sgn s w) := by
  have hS := hW.ok
  have h1 := hS.off_le s hs
  rw [WG.innerMult, get_of_some (hW.upper s hs), Res.ok_bind, get_of_some (hW.tr s hs), Res.ok_bind, transduce_R hW nd hs (hS.local_lt hs) hw,
    show S.off s + (s - S.off s) = s by omega]

/-- the letters of a piece, in internal numbering -/
def Sys.letters (S : Sys) (i x : Nat) : List Nat := (pword (S.T i) x).map (S.off i + ·)

theorem letters_lt {i x : Nat} (hi : i < S.n) (hx : x < (S.T i).n) : ∀ g ∈ S.letters i x, g ≤ i ∧ S.off i ≤ g := by
  intro g hg
  obtain ⟨a, ha, rfl⟩ := List.mem_map.1 hg
  have := pword_lt (hW.ok.good i hi) hx a ha
  have := hW.ok.off_le i hi
  omega

theorem transduceAll_ok (nd : Bool) {i : Nat} (hi : i < S.n) {l : List Nat} (hl : ∀ s ∈ l, s < S.size i) {w : Nat → Nat} (hw : S.Valid w)
    (res : Int) : W.transduceAll nd (S.top i) l (toL w) res =
      .ok (toL (S.run (l.map (S.off i + ·)) w), res + S.len (S.run (l.map (S.off i + ·)) w) - S.len w) := by
  have hS := hW.ok
  induction l generalizing w res with
  | nil =>
    rw [WG.transduceAll]
    simp [Sys.run]
  | cons s l ih =>
    have hs := hl s List.mem_cons_self
    have h1 := hS.off_le i hi
    have h2 := hS.le_top i hi
    have h3 := hS.top_lt i hi
    have hs' := hs
    unfold Sys.size at hs'
    have hlen := (hS.len_R (s := S.off i + s) (by omega) hw).1
    rw [WG.transduceAll, transduce_R hW nd hi hs hw, Res.ok_bind]
    simp only
    rw [ih (fun s hs => hl s (List.mem_cons_of_mem _ hs)) (hS.R_valid (by omega) hw)]
    have e : S.run (List.map (S.off i + ·) (s :: l)) w = S.run (List.map (S.off i + ·) l) (S.R (S.off i + s) w) := rfl
    rw [e]
    congr 2
    omega

theorem multByPiece_ok (nd : Bool) {i : Nat} (hi : i < S.n) {w v : Nat → Nat} (hw : S.Valid w) (hv : S.Valid v) :
    W.multByPiece nd (toL w) (toL v) i =
      .ok (toL (S.run (S.letters i (v i)) w), S.len (S.run (S.letters i (v i)) w) - S.len w - (S.T i).len (v i)) := by
  have hS := hW.ok
  have h4 := hW.n_le
  have hx := hv.1 i hi
  have hg := hS.good i hi
  have h1 := hS.off_le i hi
  have h2 := hS.le_top i hi
  rw [WG.multByPiece, get_toL v (by omega), Res.ok_bind, get_of_some (hW.tr i hi), Res.ok_bind, get_of_some (hW.upper i hi), Res.ok_bind,
    Transducer.getLen, if_pos hx, Res.ok_bind, letters_ok hg nd hx, Res.ok_bind, transduceAll_ok hW nd hi _ hw]
  · simp only [Sys.letters]
    congr 2
    omega
  · intro s hs
    have := pword_lt hg hx s hs
    unfold Sys.size
    omega

theorem multLoop_ok (nd : Bool) {v : Nat → Nat} (hv : S.Valid v) {k : Nat} (hk : k ≤ S.n) {w : Nat → Nat} (hw : S.Valid w) :
    ∀ j ≤ k, W.multLoop nd (toL v) ((List.range k).drop j) (toL (S.run (S.preWord j v) w)) = .ok (toL (S.run (S.preWord k v) w)) := by
  intro j hj
  induction hd : k - j generalizing j with
  | zero =>
    rw [show j = k by omega, List.drop_of_length_le (by simp)]
    rfl
  | succ d ih =>
    have hS := hW.ok
    rw [List.drop_eq_getElem_cons (by simp; omega), WG.multLoop, List.getElem_range,
      multByPiece_ok hW nd (by omega) (hS.run_valid (hS.preWord_lt (by omega) hv) hw) hv, Res.ok_bind]
    have := ih (j + 1) (by omega) (by omega)
    rw [Sys.preWord, Sys.run_append] at this
    exact this

theorem mult_ok (nd : Bool) {w v : Nat → Nat} (hw : S.Valid w) (hv : S.Valid v) :
    W.mult nd (toL w) (toL v) = .ok (toL (S.run (S.word v) w)) := by
  rw [WG.mult, hW.rank]
  exact multLoop_ok hW nd hv (Nat.le_refl _) hw 0 (by omega)

theorem multGen_ok (nd : Bool) (s : Fin S.n) {w : Nat → Nat} (hw : S.Valid w) :
    W.multGen nd (toL w) s = .ok (toL (S.R (num s) w), S.sgn (num s) w) := by
  rw [WG.multGen, get_of_some (hW.din s), Res.ok_bind, innerMult_ok hW nd (num s).2 hw]

theorem multWord_ok (nd : Bool) (l : List (Fin S.n)) {w : Nat → Nat} (hw : S.Valid w) :
    W.multWord nd (toL w) (l.map Fin.val) = .ok (toL (S.run (l.map fun s => (num s : Nat)) w)) := by
  induction l generalizing w with
  | nil =>
    rw [List.map_nil, WG.multWord.eq_def]
    rfl
  | cons s l ih =>
    rw [List.map_cons, WG.multWord.eq_def]
    simp only
    rw [multGen_ok hW nd s hw, Res.ok_bind]
    exact ih (hW.ok.R_valid (num s).2 hw)

/-! ### inverse, length, word -/

omit hW in
theorem foldRev_ok {α β : Type} {f : α → Nat → Res α} {g : β → Nat → β} {φ : β → α} {P : β → Prop} {l : List Nat}
    (h : ∀ b s, s ∈ l → P b → f (φ b) s = .ok (φ (g b s)) ∧ P (g b s)) {b : β} (hb : P b) :
    foldRev f l (φ b) = .ok (φ (l.foldl g b)) ∧ P (l.foldl g b) := by
  induction l generalizing b with
  | nil => exact ⟨rfl, hb⟩
  | cons s l ih =>
    obtain ⟨h1, h2⟩ := h b s List.mem_cons_self hb
    obtain ⟨h3, h4⟩ := ih (fun b s hs hb => h b s (List.mem_cons_of_mem _ hs) hb) h2
    rw [foldRev, h1, Res.ok_bind, h3]
    exact ⟨rfl, h4⟩

theorem inverseLoop_ok (nd : Bool) {w : Nat → Nat} (hw : S.Valid w) {k : Nat} (hk : k ≤ S.n) {v : Nat → Nat} (hv : S.Valid v) :
    W.inverseLoop nd (toL w) (List.range k).reverse (toL v) = .ok (toL (S.run (S.preWord k w).reverse v)) := by
  have hS := hW.ok
  induction k generalizing v with
  | zero => rfl
  | succ k ih =>
    have hx := hw.1 k (by omega)
    have hg := hS.good k (by omega)
    have h4 := hW.n_le
    have h1 := hS.off_le k (by omega)
    have hsmall := hg.small
    rw [List.range_succ, List.reverse_append, List.reverse_cons, List.reverse_nil, List.nil_append, List.cons_append, List.nil_append,
      WG.inverseLoop, get_toL w (by omega), Res.ok_bind, get_of_some (hW.tr k (by omega)), Res.ok_bind,
      unwind_ok hg nd _ hx (by omega)]
    have := foldRev_ok (f := fun wi s => do pure (← W.innerMult nd wi (s + S.off k)).1) (g := fun v s => S.R (S.off k + s) v)
      (φ := toL) (P := S.Valid) (l := (pword (S.T k) (w k)).reverse) (fun b s hs hb => by
        have hlt := pword_lt hg hx s (List.mem_reverse.1 hs)
        rw [Nat.add_comm s, innerMult_ok hW nd (by omega) hb]
        exact ⟨rfl, hS.R_valid (by omega) hb⟩) hv
    rw [this.1, Res.ok_bind, ih (by omega) this.2, Sys.preWord, List.reverse_append, Sys.run_append, ← List.map_reverse]
    congr 3
    rw [Sys.run, List.foldl_map]

theorem inverse_ok (nd : Bool) {w : Nat → Nat} (hw : S.Valid w) :
    W.inverse nd (toL w) = .ok (toL (S.run (S.word w).reverse fun _ => 0)) := by
  rw [WG.inverse, hW.rank, toL_zero]
  exact inverseLoop_ok hW nd hw (Nat.le_refl _) hW.ok.zero_valid

theorem lengthLoop_ok {w : Nat → Nat} (hw : S.Valid w) {k : Nat} (hk : k ≤ S.n) :
    ∀ j ≤ k, W.lengthLoop (toL w) ((List.range k).drop j) (S.preLen j w) = .ok (S.preLen k w) := by
  intro j hj
  induction hd : k - j generalizing j with
  | zero =>
    rw [show j = k by omega, List.drop_of_length_le (by simp)]
    rfl
  | succ d ih =>
    have h4 := hW.n_le
    rw [List.drop_eq_getElem_cons (by simp; omega), WG.lengthLoop, List.getElem_range, get_of_some (hW.tr j (by omega)), Res.ok_bind,
      get_toL w (by omega), Res.ok_bind, Transducer.getLen, if_pos (hw.1 j (by omega)), Res.ok_bind]
    exact ih (j + 1) (by omega) (by omega)

theorem length_ok {w : Nat → Nat} (hw : S.Valid w) : W.length (toL w) = .ok (S.len w) := by
  rw [WG.length, hW.rank]
  exact lengthLoop_ok hW hw (Nat.le_refl _) 0 (by omega)

/-- letters in external numbering -/
def ext (num : Fin S.n ≃ Fin S.n) (i : Nat) : Nat := if h : i < S.n then (num.symm ⟨i, h⟩ : Nat) else 0

theorem dout_ok {i : Nat} (hi : i < S.n) : Vec.get W.dout i = .ok (ext num i) := by
  rw [get_of_some (hW.dout ⟨i, hi⟩), ext, dif_pos hi]

theorem wordLoop_ok (nd : Bool) {w : Nat → Nat} (hw : S.Valid w) {k : Nat} (hk : k ≤ S.n) (acc : List Nat) :
    W.wordLoop nd (toL w) (List.range k).reverse (S.preLen k w, acc) = .ok (0, (S.preWord k w).map (ext num) ++ acc) := by
  have hS := hW.ok
  induction k generalizing acc with
  | zero => rfl
  | succ k ih =>
    have hx := hw.1 k (by omega)
    have hg := hS.good k (by omega)
    have h4 := hW.n_le
    have h1 := hS.off_le k (by omega)
    have hsmall := hg.small
    rw [List.range_succ, List.reverse_append, List.reverse_cons, List.reverse_nil, List.nil_append, List.cons_append, List.nil_append,
      WG.wordLoop, get_toL w (by omega), Res.ok_bind, get_of_some (hW.tr k (by omega)), Res.ok_bind,
      unwind_ok hg nd _ hx (by omega)]
    have key : ∀ (l : List Nat), (∀ s ∈ l, s < k - S.off k + 1) → ∀ (m : Nat) (acc : List Nat),
        foldRev (fun (r : Nat × List Nat) s => do
          let g ← Vec.get W.dout (s + S.off k)
          if r.1 = 0 then .undefined else pure (r.1 - 1, g :: r.2)) l (m + l.length, acc) =
          .ok (m, (l.reverse.map fun s => ext num (S.off k + s)) ++ acc) := by
      intro l
      induction l with
      | nil => intro _ m acc; rfl
      | cons s l ihl =>
        intro hl m acc
        have hlt := hl s List.mem_cons_self
        rw [foldRev, Nat.add_comm s, dout_ok hW (by omega), Res.ok_bind, if_neg (by simp), Res.pure_eq, Res.ok_bind, List.length_cons,
          show m + (l.length + 1) - 1 = m + l.length by omega, ihl (fun s hs => hl s (List.mem_cons_of_mem _ hs))]
        simp
    have hlen : S.preLen (k + 1) w = S.preLen k w + (pword (S.T k) (w k)).reverse.length := by
      rw [Sys.preLen, List.length_reverse, pword_length hg hx]
    rw [hlen, key _ (fun s hs => pword_lt hg hx s (List.mem_reverse.1 hs)), Res.ok_bind, ih (by omega), Sys.preWord, List.map_append,
      List.map_map, List.reverse_reverse, List.append_assoc]
    rfl

theorem word_ok (nd : Bool) {w : Nat → Nat} (hw : S.Valid w) : W.word nd (toL w) = .ok ((S.word w).map (ext num)) := by
  rw [WG.word, length_ok hW hw, Res.ok_bind, hW.rank, Sys.len, wordLoop_ok hW nd hw (Nat.le_refl _), Res.ok_bind]
  simp only
  rw [Res.assertIn_bind nd (by simp)]
  simp [Sys.word]

end

end Verif.Weyl
