import Verif.Weyl.Spec
import Verif.Weyl.Ops
import Verif.Weyl.Assert
import Mathlib.Data.Fintype.Card
/-
The constructor of `WeylGroup`.
-/
namespace Verif.Weyl
open Verif

/-! ### loops that fill arrays -/

theorem put_some {α : Type} {v : List α} {i : Nat} (h : i < v.length) (x : α) :
    ∃ v', Vec.put v i x = .ok v' ∧ v'.length = v.length ∧ v'[i]? = some x ∧ ∀ k, k ≠ i → v'[k]? = v[k]? := by
  refine ⟨v.set i x, Vec.put_ok h x, by simp, by simp [h], ?_⟩
  intro k hk
  rw [List.getElem?_set_ne (Ne.symm hk)]

theorem fillUp_ok {base : Nat} {l : List Nat} {i : Nat} {v : List Nat} (h : base + i + l.length ≤ v.length) :
    ∃ v', fillUp base i l v = .ok v' ∧ v'.length = v.length ∧ (∀ j < l.length, v'[base + i + j]? = l[j]?) ∧
      ∀ k, (k < base + i ∨ base + i + l.length ≤ k) → v'[k]? = v[k]? := by
  induction l generalizing i v with
  | nil => exact ⟨v, rfl, rfl, fun j hj => absurd hj (by simp), fun _ _ => rfl⟩
  | cons x l ih =>
    rw [List.length_cons] at h
    obtain ⟨v1, e1, l1, a1, b1⟩ := put_some (v := v) (i := base + i) (by omega) x
    obtain ⟨v2, e2, l2, a2, b2⟩ := ih (i := i + 1) (v := v1) (by omega)
    refine ⟨v2, by rw [fillUp, e1, Res.ok_bind, e2], by omega, ?_, ?_⟩
    · intro j hj
      cases j with
      | zero => rw [Nat.add_zero, b2 _ (by omega), a1]; rfl
      | succ j =>
        rw [List.length_cons] at hj
        have := a2 j (by omega)
        rw [show base + (i + 1) + j = base + i + (j + 1) by omega] at this
        simpa using this
    · intro k hk
      rw [List.length_cons] at hk
      rw [b2 k (by omega), b1 k (by omega)]

theorem fillDown_ok {last : Nat} {l : List Nat} {i : Nat} {v : List Nat} (h : last < v.length) (hi : i + l.length ≤ last + 1) :
    ∃ v', fillDown last i l v = .ok v' ∧ v'.length = v.length ∧ (∀ j < l.length, v'[last - i - j]? = l[j]?) ∧
      ∀ k, (k + i + l.length ≤ last ∨ last < k + i) → v'[k]? = v[k]? := by
  induction l generalizing i v with
  | nil => exact ⟨v, rfl, rfl, fun j hj => absurd hj (by simp), fun _ _ => rfl⟩
  | cons x l ih =>
    rw [List.length_cons] at hi
    obtain ⟨v1, e1, l1, a1, b1⟩ := put_some (v := v) (i := last - i) (by omega) x
    obtain ⟨v2, e2, l2, a2, b2⟩ := ih (i := i + 1) (v := v1) (by omega) (by omega)
    refine ⟨v2, by rw [fillDown, e1, Res.ok_bind, e2], by omega, ?_, ?_⟩
    · intro j hj
      cases j with
      | zero => rw [Nat.sub_zero, b2 _ (by omega), a1]; rfl
      | succ j =>
        rw [List.length_cons] at hj
        have := a2 j (by omega)
        rw [show last - (i + 1) - j = last - i - (j + 1) by omega] at this
        simpa using this
    · intro k hk
      rw [List.length_cons] at hk
      rw [b2 k (by omega), b1 k (by omega)]

/-- components numbered consecutively from `o` to `n` -/
inductive Offsets : Nat → List Comp → Nat → Prop
  | nil (n : Nat) : Offsets n [] n
  | cons {o n : Nat} {c : Comp} {cs : List Comp} (h1 : c.offset = o) (h2 : 0 < c.rank) (h3 : c.rank ≤ c.ty.maxRank)
      (h : Offsets (o + c.rank) cs n) : Offsets o (c :: cs) n

theorem Offsets.le {o n : Nat} {cs : List Comp} (h : Offsets o cs n) : o ≤ n := by
  induction h with
  | nil => omega
  | cons _ _ _ _ ih => omega

theorem Offsets.mem {o n : Nat} {cs : List Comp} (h : Offsets o cs n) {c : Comp} (hc : c ∈ cs) :
    o ≤ c.offset ∧ c.offset + c.rank ≤ n ∧ 0 < c.rank ∧ c.rank ≤ c.ty.maxRank := by
  induction h with
  | nil => simp at hc
  | cons h1 h2 h3 h ih =>
    rcases List.mem_cons.1 hc with rfl | hc
    · have := h.le
      omega
    · have := ih hc
      omega

theorem Offsets.cover {o n : Nat} {cs : List Comp} (h : Offsets o cs n) {i : Nat} (h1 : o ≤ i) (h2 : i < n) :
    ∃ c ∈ cs, ∃ j < c.rank, i = c.offset + j := by
  induction h with
  | nil => omega
  | @cons o n c cs e1 e2 e3 h ih =>
    by_cases hi : i < o + c.rank
    · exact ⟨c, List.mem_cons_self, i - o, by omega, by omega⟩
    · obtain ⟨c', hc', j, hj, e⟩ := ih (by omega) h2
      exact ⟨c', List.mem_cons_of_mem _ hc', j, hj, e⟩

theorem Offsets.unique {o n : Nat} {cs : List Comp} (h : Offsets o cs n) {c c' : Comp} (hc : c ∈ cs) (hc' : c' ∈ cs) {j j' : Nat}
    (hj : j < c.rank) (hj' : j' < c'.rank) (e : c.offset + j = c'.offset + j') : c = c' := by
  induction h with
  | nil => simp at hc
  | @cons o n d cs e1 e2 e3 h ih =>
    rcases List.mem_cons.1 hc with rfl | hc1
    · rcases List.mem_cons.1 hc' with rfl | hc2
      · rfl
      · have := h.mem hc2
        omega
    · rcases List.mem_cons.1 hc' with rfl | hc2
      · have := h.mem hc1
        omega
      · exact ih hc1 hc2

/-- the component to which an internal number belongs -/
def compAt (cs : List Comp) (i : Nat) : Comp :=
  (cs.find? fun c => decide (c.offset ≤ i ∧ i < c.offset + c.rank)).getD ⟨.A, 0, []⟩

theorem compAt_eq {o n : Nat} {cs : List Comp} (h : Offsets o cs n) {c : Comp} (hc : c ∈ cs) {i : Nat} (h1 : c.offset ≤ i)
    (h2 : i < c.offset + c.rank) : compAt cs i = c := by
  unfold compAt
  cases hf : cs.find? fun c => decide (c.offset ≤ i ∧ i < c.offset + c.rank) with
  | none =>
    have := List.find?_eq_none.1 hf c hc
    simp at this
    omega
  | some d =>
    have hd := List.mem_of_find?_eq_some hf
    have := List.find?_some hf
    simp at this
    show d = c
    exact h.unique hd hc (j := i - d.offset) (j' := i - c.offset) (by omega) (by omega) (by omega)

/-- the external number of the node in place `j` of a component -/
def Comp.order (c : Comp) (j : Nat) : Nat :=
  c.position.getD (if c.ty = .B ∨ c.ty = .C ∨ c.ty = .D then c.rank - 1 - j else j) 0

theorem orderLoop_ok {o n : Nat} {cs : List Comp} (h : Offsets o cs n) {upper dout : List Nat} (hu : n ≤ upper.length) (hd : n ≤ dout.length) :
    ∃ upper' dout', orderLoop cs upper dout = .ok (upper', dout') ∧ upper'.length = upper.length ∧ dout'.length = dout.length ∧
      (∀ c ∈ cs, ∀ j < c.rank, upper'[c.offset + j]? = some (c.offset + c.rank - 1) ∧ dout'[c.offset + j]? = some (c.order j)) ∧
      ∀ k < o, upper'[k]? = upper[k]? ∧ dout'[k]? = dout[k]? := by
  induction h generalizing upper dout with
  | nil => exact ⟨upper, dout, rfl, rfl, rfl, fun _ h => by simp at h, fun _ _ => ⟨rfl, rfl⟩⟩
  | @cons o n c cs e1 e2 e3 h ih =>
    have hle := h.le
    obtain ⟨u1, q1, l1, a1, b1⟩ := fillUp_ok (base := c.offset) (i := 0) (l := List.replicate c.rank (c.offset + c.rank - 1)) (v := upper)
      (by simp; omega)
    have hdo : ∃ d1, (if c.ty = .B ∨ c.ty = .C ∨ c.ty = .D then fillDown (c.offset + c.rank - 1) 0 c.position dout
        else fillUp c.offset 0 c.position dout) = .ok d1 ∧ d1.length = dout.length ∧
        (∀ j < c.rank, d1[c.offset + j]? = some (c.order j)) ∧ ∀ k < o, d1[k]? = dout[k]? := by
      by_cases hty : c.ty = .B ∨ c.ty = .C ∨ c.ty = .D
      · rw [if_pos hty]
        have : c.position.length = c.rank := rfl
        obtain ⟨d1, q2, l2, a2, b2⟩ := fillDown_ok (last := c.offset + c.rank - 1) (i := 0) (l := c.position) (v := dout) (by omega) (by omega)
        refine ⟨d1, q2, l2, ?_, fun k hk => b2 k (by omega)⟩
        intro j hj
        have := a2 (c.rank - 1 - j) (by omega)
        rw [show c.offset + c.rank - 1 - 0 - (c.rank - 1 - j) = c.offset + j by omega] at this
        rw [this, Comp.order, if_pos hty, List.getD_eq_getElem?_getD, List.getElem?_eq_getElem (by omega)]
        rfl
      · rw [if_neg hty]
        have : c.position.length = c.rank := rfl
        obtain ⟨d1, q2, l2, a2, b2⟩ := fillUp_ok (base := c.offset) (i := 0) (l := c.position) (v := dout) (by omega)
        refine ⟨d1, q2, l2, ?_, fun k hk => b2 k (by omega)⟩
        intro j hj
        have := a2 j (by omega)
        rw [Nat.add_zero] at this
        rw [this, Comp.order, if_neg hty, List.getD_eq_getElem?_getD, List.getElem?_eq_getElem (by omega)]
        rfl
    obtain ⟨d1, q2, l2, a2, b2⟩ := hdo
    obtain ⟨u2, d2, q3, l3, l4, a3, b3⟩ := ih (upper := u1) (dout := d1) (by omega) (by omega)
    refine ⟨u2, d2, ?_, by omega, by omega, ?_, ?_⟩
    · rw [orderLoop, q1, Res.ok_bind, q2, Res.ok_bind, q3]
    · intro c' hc' j hj
      rcases List.mem_cons.1 hc' with rfl | hc'
      · obtain ⟨x1, x2⟩ := b3 (c'.offset + j) (by omega)
        rw [x1, x2, a2 j hj]
        have := a1 j (by simpa using hj)
        rw [Nat.add_zero] at this
        rw [this]
        simp [hj]
      · exact a3 c' hc' j hj
    · intro k hk
      obtain ⟨x1, x2⟩ := b3 k (by omega)
      rw [x1, x2, b2 k hk, b1 k (by omega)]
      exact ⟨rfl, rfl⟩

theorem invertLoop_ok {dout : List Nat} {f : Nat → Nat} {l : List Nat} {din : List Nat} (hd : ∀ i ∈ l, dout[i]? = some (f i))
    (hlt : ∀ i ∈ l, f i < din.length) (hinj : ∀ i ∈ l, ∀ j ∈ l, f i = f j → i = j) :
    ∃ din', invertLoop dout l din = .ok din' ∧ din'.length = din.length ∧ (∀ i ∈ l, din'[f i]? = some i) ∧
      ∀ k, (∀ i ∈ l, f i ≠ k) → din'[k]? = din[k]? := by
  induction l generalizing din with
  | nil => exact ⟨din, rfl, rfl, fun _ h => by simp at h, fun _ _ => rfl⟩
  | cons i l ih =>
    obtain ⟨v1, e1, l1, a1, b1⟩ := put_some (v := din) (i := f i) (hlt i List.mem_cons_self) i
    obtain ⟨v2, e2, l2, a2, b2⟩ := ih (din := v1) (fun j hj => hd j (List.mem_cons_of_mem _ hj))
      (fun j hj => by rw [l1]; exact hlt j (List.mem_cons_of_mem _ hj))
      (fun j hj k hk => hinj j (List.mem_cons_of_mem _ hj) k (List.mem_cons_of_mem _ hk))
    refine ⟨v2, ?_, by omega, ?_, ?_⟩
    · rw [invertLoop, get_of_some (hd i List.mem_cons_self), Res.ok_bind, e1, Res.ok_bind, e2]
    · intro j hj
      rcases List.mem_cons.1 hj with rfl | hj
      · by_cases hjl : j ∈ l
        · exact a2 j hjl
        · rw [b2, a1]
          intro k hk hkj
          have := hinj k (List.mem_cons_of_mem _ hk) j List.mem_cons_self hkj
          exact hjl (this ▸ hk)
      · exact a2 j hj
    · intro k hk
      rw [b2 k fun j hj => hk j (List.mem_cons_of_mem _ hj), b1 k (Ne.symm (hk i List.mem_cons_self))]

theorem trLoop_ok (nd : Bool) {c : Comp} {k : Nat} (hc : k ≤ c.ty.maxRank) {v : List Tr} (h : c.offset + k ≤ v.length) :
    ∀ j ≤ k, ∃ v', trLoop nd c ((List.range k).drop j) v = .ok v' ∧ v'.length = v.length ∧
      (∀ i, j ≤ i → i < k → ∃ T, v'[c.offset + i]? = some ⟨c.offset, T⟩ ∧ T.Good (coxeter c.ty) i ∧ T.n = c.ty.states i) ∧
      ∀ m, (m < c.offset + j ∨ c.offset + k ≤ m) → v'[m]? = v[m]? := by
  intro j hj
  induction hd : k - j generalizing j v with
  | zero =>
    rw [show j = k by omega, List.drop_of_length_le (by simp)]
    exact ⟨v, rfl, rfl, fun i _ _ => by omega, fun _ _ => rfl⟩
  | succ d ih =>
    rw [List.drop_eq_getElem_cons (by simp; omega), List.getElem_range]
    obtain ⟨T, hT1, hT2⟩ := make_good nd c.ty j (by omega)
    obtain ⟨v1, e1, l1, a1, b1⟩ := put_some (v := v) (i := c.offset + j) (by omega) (⟨c.offset, T⟩ : Tr)
    obtain ⟨v2, e2, l2, a2, b2⟩ := ih (v := v1) (by omega) (j + 1) (by omega) (by omega)
    refine ⟨v2, by rw [trLoop, hT1, Res.ok_bind, e1, Res.ok_bind, e2], by omega, ?_, ?_⟩
    · intro i h1 h2
      by_cases hij : i = j
      · subst hij
        exact ⟨T, by rw [b2 _ (by omega), a1], hT2⟩
      · exact a2 i (by omega) h2
    · intro m hm
      rw [b2 m (by omega), b1 m (by omega)]

theorem trLoops_ok (nd : Bool) {o n : Nat} {cs : List Comp} (h : Offsets o cs n) {v : List Tr} (hv : n ≤ v.length) :
    ∃ v', trLoops nd cs v = .ok v' ∧ v'.length = v.length ∧
      (∀ c ∈ cs, ∀ j < c.rank, ∃ T, v'[c.offset + j]? = some ⟨c.offset, T⟩ ∧ T.Good (coxeter c.ty) j ∧ T.n = c.ty.states j) ∧ ∀ k < o, v'[k]? = v[k]? := by
  induction h generalizing v with
  | nil => exact ⟨v, rfl, rfl, fun _ h => by simp at h, fun _ _ => rfl⟩
  | @cons o n c cs e1 e2 e3 h ih =>
    have hle := h.le
    obtain ⟨v1, q1, l1, a1, b1⟩ := trLoop_ok nd (c := c) (k := c.rank) e3 (v := v) (by omega) 0 (by omega)
    obtain ⟨v2, q2, l2, a2, b2⟩ := ih (v := v1) (by omega)
    refine ⟨v2, ?_, by omega, ?_, ?_⟩
    · rw [trLoops]
      rw [List.drop_zero] at q1
      rw [q1, Res.ok_bind, q2]
    · intro c' hc' j hj
      rcases List.mem_cons.1 hc' with rfl | hc'
      · rw [b2 _ (by omega)]
        exact a1 j (by omega) hj
      · exact a2 c' hc' j hj
    · intro k hk
      rw [b2 k (by omega), b1 k (by omega)]

/-! ### commuting generators -/

theorem up_two {T : Transducer} {k x u v y : Nat} (h : T.up (k + 1) x u v = some y) : x < T.ent x u ∧ T.ent x u < T.n ∧ T.up k (T.ent x u) v u = some y := by
  rw [Transducer.up] at h
  cases hb : (Nat.blt x (T.ent x u) && Nat.blt (T.ent x u) T.n) with
  | false => rw [hb] at h; simp at h
  | true =>
    rw [hb] at h
    rw [Bool.and_eq_true, Nat.blt_eq, Nat.blt_eq] at hb
    exact ⟨hb.1, hb.2, h⟩

theorem ent_one {M : Nat → Nat → Nat} {r : Nat} {T : Transducer} (hg : T.Good M r) {a : Nat} (ha : a < r) (h2 : 2 ≤ M r a) :
    (¬ T.ent 1 a < T.n) ↔ M r a = 2 := by
  have hn := hg.two_le
  obtain ⟨y, h3, h4⟩ := hg.string 0 (by omega) r (by omega) a (by omega) (by omega) (by rw [hg.row0r]; omega) (by rw [hg.row0r]; omega)
    (by rw [hg.row0 a ha]; omega)
  obtain ⟨k, hk⟩ : ∃ k, M r a = k + 2 := ⟨M r a - 2, by omega⟩
  rw [hk, show k + 2 - 1 = k + 1 by omega] at h3
  obtain ⟨-, -, h5⟩ := up_two h3
  rw [hg.row0r] at h5
  cases k with
  | zero =>
    rw [Transducer.up] at h5
    obtain rfl : 1 = y := by simpa using h5
    rw [hk, if_pos rfl, hg.row0 a ha] at h4
    rw [h4, hk]
    omega
  | succ k =>
    obtain ⟨-, h6, -⟩ := up_two h5
    omega

section
variable {W : WG} {S : Sys} (hS : S.OK) (htwo : ∀ i < S.n, ∀ j < S.n, i ≠ j → 2 ≤ S.cox i j)
  (htr : ∀ i < S.n, W.tr[i]? = some ⟨S.off i, S.T i⟩) (hup : ∀ i < S.n, W.upper[i]? = some (S.top i))
include hS htwo htr hup

theorem innerCommutes_ok (nd : Bool) {i j : Nat} (hi : i < S.n) (hj : j < S.n) (hij : i ≠ j) :
    W.innerCommutes nd i j = .ok (decide (S.cox i j = 2)) := by
  rw [WG.innerCommutes, get_of_some (hup i hi), Res.ok_bind, get_of_some (hup j hj), Res.ok_bind]
  by_cases ht : S.top i ≠ S.top j
  · rw [if_pos ht, Sys.cox, if_neg hij, if_neg fun e => ht (hS.eq_comp hi hj e).1]
    rfl
  · rw [if_neg ht]
    push Not at ht
    have ho : S.off i = S.off j := by
      by_contra hne
      have := hS.disjoint hi hj hne
      have := hS.off_le i hi
      have := hS.le_top i hi
      have := hS.off_le j hj
      have := hS.le_top j hj
      omega
    have hb : max i j < S.n := by omega
    have e1 : S.off (max i j) = S.off i := by
      rcases Nat.le_total i j with h | h
      · rw [Nat.max_eq_right h, ho]
      · rw [Nat.max_eq_left h]
    have e2 : S.cox (max i j) (min i j) = S.cox i j := by
      rcases Nat.le_total i j with h | h
      · rw [Nat.max_eq_right h, Nat.min_eq_left h, Sys.cox, if_neg (Ne.symm hij), if_pos ho.symm, Sys.cox, if_neg hij, if_pos ho, ← ho]
        exact hS.symm _ _ _
      · rw [Nat.max_eq_left h, Nat.min_eq_right h]
    have hg := hS.good _ hb
    have hoi := hS.off_le i hi
    have hoj := hS.off_le j hj
    have h2 := htwo _ hb _ (by omega : min i j < S.n) (by omega)
    have e3 : S.off (min i j) = S.off i := by
      rcases Nat.le_total i j with h | h
      · rw [Nat.min_eq_left h]
      · rw [Nat.min_eq_right h, ho]
    have e4 : S.cox (max i j) (min i j) = S.M (S.off (max i j)) (max i j - S.off (max i j)) (min i j - S.off (max i j)) := by
      rw [Sys.cox, if_neg (by omega), if_pos (by rw [e1, e3])]
    have hlt : min i j - S.off (max i j) < max i j - S.off (max i j) := by rw [e1]; omega
    rw [e4] at h2
    have := ent_one hg hlt h2
    rw [get_of_some (htr _ hb), Res.ok_bind]
    simp only
    rw [look_ok hg nd (by have := hg.two_le; omega) (by omega), Res.ok_bind, Res.pure_eq, ← e2, e4]
    congr 1
    rw [decide_eq_decide]
    exact this

theorem starInner_ok (nd : Bool) {j : Nat} (hj : j < S.n) : ∀ k ≤ j, (∀ i < k, S.cox i j = 2) →
    ∃ t, starInner nd W j ((List.range j).drop k) = .ok t ∧ S.off j ≤ t ∧ t ≤ j ∧ ∀ i < t, S.cox i j = 2 := by
  intro k hk
  induction hd : j - k generalizing k with
  | zero =>
    intro h
    rw [show k = j by omega, List.drop_of_length_le (by simp)]
    exact ⟨j, rfl, hS.off_le j hj, Nat.le_refl _, fun i hi => h i (by omega)⟩
  | succ d ih =>
    intro h
    rw [List.drop_eq_getElem_cons (by simp; omega), List.getElem_range, starInner, innerCommutes_ok hS htwo htr hup nd (by omega) hj (by omega), Res.ok_bind]
    by_cases hc : S.cox k j = 2
    · rw [decide_eq_true hc, if_pos rfl]
      refine ih (k + 1) (by omega) (by omega) fun i hi => ?_
      by_cases hik : i = k
      · rw [hik, hc]
      · exact h i (by omega)
    · rw [decide_eq_false hc, if_neg (by simp)]
      refine ⟨k, rfl, ?_, by omega, h⟩
      by_contra hlt
      apply hc
      have := hS.off_le k (by omega)
      rw [Sys.cox, if_neg (by omega), if_neg (by omega)]

end

theorem starLoop_ok (nd : Bool) {S : Sys} (hS : S.OK) (htwo : ∀ i < S.n, ∀ j < S.n, i ≠ j → 2 ≤ S.cox i j) {l : List Nat} (hl : ∀ j ∈ l, j < S.n)
    {W : WG} (htr : ∀ i < S.n, W.tr[i]? = some ⟨S.off i, S.T i⟩) (hup : ∀ i < S.n, W.upper[i]? = some (S.top i)) (hm : S.n ≤ W.minStar.length) :
    ∃ ms, starLoop nd l W = .ok { W with minStar := ms } ∧ ms.length = W.minStar.length ∧
      (∀ j ∈ l, ∃ t, ms[j]? = some t ∧ S.off j ≤ t ∧ t ≤ j ∧ ∀ i < t, S.cox i j = 2) ∧ ∀ k, k ∉ l → ms[k]? = W.minStar[k]? := by
  induction l generalizing W with
  | nil => exact ⟨W.minStar, rfl, rfl, fun _ h => by simp at h, fun _ _ => rfl⟩
  | cons j l ih =>
    have hj := hl j List.mem_cons_self
    obtain ⟨t, e1, ht⟩ := starInner_ok hS htwo htr hup nd hj 0 (by omega) (fun i hi => by omega)
    rw [List.drop_zero] at e1
    obtain ⟨v1, e2, l1, a1, b1⟩ := put_some (v := W.minStar) (i := j) (by omega) t
    obtain ⟨ms, e3, l2, a2, b2⟩ := ih (W := { W with minStar := v1 }) (fun j hj => hl j (List.mem_cons_of_mem _ hj)) htr hup (by simp only; omega)
    refine ⟨ms, ?_, by simp only at l2; omega, ?_, ?_⟩
    · rw [starLoop, e1, Res.ok_bind, e2, Res.ok_bind, e3]
    · intro k hk
      by_cases hkl : k ∈ l
      · exact a2 k hkl
      · rcases List.mem_cons.1 hk with rfl | hk
        · exact ⟨t, by rw [b2 k hkl]; exact a1, ht⟩
        · exact absurd hk hkl
    · intro k hk
      rw [List.mem_cons, not_or] at hk
      rw [b2 k hk.2]
      exact b1 k hk.1

/-! ### the constructor -/

theorem Ty.rank_pos {ty : Ty} {n : Nat} (h : ty.RankOK n) : 0 < n := by
  cases ty <;> simp only [Ty.RankOK] at h <;> omega

theorem Ty.rank_le {ty : Ty} {n : Nat} (h : ty.RankOK n) (hn : n ≤ 32) : n ≤ ty.maxRank := by
  cases ty <;> simp only [Ty.RankOK] at h <;> simp only [Ty.maxRank] <;> omega

theorem sum_rank (cs : List Comp) : (cs.flatMap Comp.position).length = (cs.map Comp.rank).sum := by
  rw [List.length_flatMap]
  rfl

theorem offsets_of {o : Nat} {cs : List Comp} (h1 : ∀ c ∈ cs, c.ty.RankOK c.rank) (h2 : ∀ c ∈ cs, c.rank ≤ 32)
    (h3 : ∀ k (hk : k < cs.length), cs[k].offset = o + ((cs.take k).map Comp.rank).sum) : Offsets o cs (o + (cs.map Comp.rank).sum) := by
  induction cs generalizing o with
  | nil => exact Offsets.nil o
  | cons c cs ih =>
    have hc := h1 c List.mem_cons_self
    refine Offsets.cons ?_ (Ty.rank_pos hc) (Ty.rank_le hc (h2 c List.mem_cons_self)) ?_
    · have := h3 0 (by simp)
      simpa using this
    · rw [List.map_cons, List.sum_cons, ← Nat.add_assoc]
      refine ih (fun c hc => h1 c (List.mem_cons_of_mem _ hc)) (fun c hc => h2 c (List.mem_cons_of_mem _ hc)) ?_
      intro k hk
      have := h3 (k + 1) (by simpa using hk)
      simp only [List.getElem_cons_succ, List.take_succ_cons, List.map_cons, List.sum_cons] at this
      omega

theorem IsDynkin.offs {rank : Nat} {C : Fin rank → Fin rank → Int} {comps : List Comp} (h : IsDynkin rank C comps) : Offsets 0 comps rank := by
  have hsum : (comps.map Comp.rank).sum = rank := by
    rw [← sum_rank, h.perm.length_eq, List.length_range]
  have := offsets_of (o := 0) h.ranks (fun c hc => by
    have := h.rank_le
    have h2 : c.rank ≤ (comps.map Comp.rank).sum := List.single_le_sum (by simp) _ (List.mem_map_of_mem hc)
    omega) (fun k hk => by rw [h.offsets k hk, Nat.zero_add])
  rwa [Nat.zero_add, hsum] at this

theorem coxeter_two_le (ty : Ty) {i j : Nat} (h : i ≠ j) : 2 ≤ coxeter ty i j := by
  unfold coxeter coxeterLe
  cases ty <;> simp <;> (repeat' split) <;> omega

theorem coxeter_one_le (ty : Ty) (i j : Nat) : 1 ≤ coxeter ty i j := by
  unfold coxeter coxeterLe
  cases ty <;> simp <;> (repeat' split) <;> omega

/-- place of a node in Bourbaki's numbering -/
def Comp.place (c : Comp) (j : Nat) : Nat := if c.ty = .B ∨ c.ty = .C ∨ c.ty = .D then c.rank - 1 - j else j

/-- the table in the code agrees with that of the diagrams -/
theorem coxeter_bond {c : Comp} (h : c.ty.RankOK c.rank) {i j : Nat} (hi : i < c.rank) (hj : j < c.rank) (hij : i ≠ j) :
    coxeter c.ty i j = bondOrder (bond c.ty c.rank (c.place i) (c.place j)) := by
  unfold Comp.place
  generalize c.rank = n at *
  generalize c.ty = ty at *
  have key : ∀ i j, i < j → j < n → coxeterLe ty i j = bondOrder (bond ty n (if ty = .B ∨ ty = .C ∨ ty = .D then n - 1 - i else i)
      (if ty = .B ∨ ty = .C ∨ ty = .D then n - 1 - j else j)) := by
    intro i j hij hj
    cases ty <;> simp only [Ty.RankOK] at h <;> simp only [coxeterLe, bond, bondLt, reduceCtorEq, false_or, or_false, or_true, if_true, if_false,
      ne_eq, not_true_eq_false, not_false_eq_true, and_true, true_and, and_false, false_and, and_self] <;>
      (repeat' split) <;> first | omega | rfl
  rcases Nat.lt_or_gt_of_ne hij with h1 | h1
  · rw [coxeter, if_neg (by omega), key i j h1 hj]
  · rw [coxeter, if_pos h1, key j i h1 hi]
    congr 2
    unfold bond
    have : ∀ a b : Nat, a ≠ b → (if a < b then bondLt ty n a b else bondLt ty n b a) = (if b < a then bondLt ty n b a else bondLt ty n a b) := by
      intro a b hab
      by_cases hlt : a < b
      · rw [if_pos hlt, if_neg (by omega)]
      · rw [if_neg hlt, if_pos (by omega)]
    apply this
    split <;> omega

/-- the data of a `WeylGroup` that has transducers `T` -/
def mkSys (rank : Nat) (comps : List Comp) (T : Nat → Transducer) : Sys where
  n := rank
  T := T
  off i := (compAt comps i).offset
  top i := (compAt comps i).offset + (compAt comps i).rank - 1
  M o := coxeter (compAt comps o).ty

theorem mkSys_ok {rank : Nat} {comps : List Comp} (h : Offsets 0 comps rank) {T : Nat → Transducer}
    (hT : ∀ c ∈ comps, ∀ j < c.rank, (T (c.offset + j)).Good (coxeter c.ty) j) : (mkSys rank comps T).OK := by
  have hc : ∀ i < rank, ∃ c ∈ comps, compAt comps i = c ∧ c.offset ≤ i ∧ i < c.offset + c.rank ∧ c.offset + c.rank ≤ rank ∧ 0 < c.rank := by
    intro i hi
    obtain ⟨c, hc, j, hj, rfl⟩ := h.cover (Nat.zero_le _) hi
    have := h.mem hc
    exact ⟨c, hc, compAt_eq h hc (by omega) (by omega), by omega, by omega, by omega, by omega⟩
  constructor
  · intro i hi
    obtain ⟨c, h1, h2, h3, h4, h5, h6⟩ := hc i hi
    simp only [mkSys, h2]
    omega
  · intro i hi
    obtain ⟨c, h1, h2, h3, h4, h5, h6⟩ := hc i hi
    simp only [mkSys, h2]
    omega
  · intro i hi
    obtain ⟨c, h1, h2, h3, h4, h5, h6⟩ := hc i hi
    simp only [mkSys, h2]
    omega
  · intro i hi j hj1 hj2
    obtain ⟨c, h1, h2, h3, h4, h5, h6⟩ := hc i hi
    simp only [mkSys, h2] at hj1 hj2 ⊢
    rw [compAt_eq h h1 hj1 (by omega)]
    exact ⟨rfl, rfl⟩
  · intro i hi
    obtain ⟨c, h1, h2, h3, h4, h5, h6⟩ := hc i hi
    have := hT c h1 (i - c.offset) (by omega)
    simp only [mkSys, h2]
    rw [show c.offset + (i - c.offset) = i by omega] at this
    rwa [compAt_eq h h1 (Nat.le_refl _) (by omega)]
  · intro o s t
    exact coxeter_symm _ _ _
  · intro o s t
    exact coxeter_one_le _ _ _

theorem mkSys_two_le (rank : Nat) (comps : List Comp) (h : Offsets 0 comps rank) (T : Nat → Transducer) :
    ∀ i < (mkSys rank comps T).n, ∀ j < (mkSys rank comps T).n, i ≠ j → 2 ≤ (mkSys rank comps T).cox i j := by
  intro i hi j hj hij
  rw [Sys.cox, if_neg hij]
  split
  · rename_i ho
    obtain ⟨c, hc, k, hk, rfl⟩ := h.cover (Nat.zero_le _) hi
    obtain ⟨c', hc', k', hk', rfl⟩ := h.cover (Nat.zero_le _) hj
    simp only [mkSys] at ho ⊢
    rw [compAt_eq h hc (by omega) (by omega), compAt_eq h hc' (by omega) (by omega)] at ho
    rw [compAt_eq h hc (i := c.offset + k) (by omega) (by omega)]
    exact coxeter_two_le _ (by omega)
  · omega

/-- the constructor succeeds, and builds a Weyl group for the Cartan matrix that the components describe -/
theorem make_ok (nd : Bool) {rank : Nat} {C : Fin rank → Fin rank → Int} {comps : List Comp} (h : IsDynkin rank C comps) :
    ∃ W T, ∃ num : Fin rank ≃ Fin rank, WG.make nd rank comps = .ok W ∧ WGood W (mkSys rank comps T) num ∧
      (∀ s t : Fin rank, (mkSys rank comps T).cox (num s) (num t) = coxMatrix C s t) ∧ W.tr.length = rank ∧
      ∀ c ∈ comps, ∀ j < c.rank, (T (c.offset + j)).n = c.ty.states j := by
  have hoff := h.offs
  have hrank := h.rank_le
  obtain ⟨upper, dout, e1, l1, l2, a1, -⟩ := orderLoop_ok hoff (upper := List.replicate rank 0) (dout := List.replicate rankMax undef)
    (by simp) (by simpa [rankMax] using hrank)
  rw [List.length_replicate] at l1 l2
  have hpos : ∀ c ∈ comps, ∀ x ∈ c.position, x < rank := by
    intro c hc x hx
    have := h.perm.subset (List.mem_flatMap.2 ⟨c, hc, hx⟩)
    simpa using this
  have hplace : ∀ c ∈ comps, ∀ j < c.rank, c.position[c.place j]? = some (c.order j) := by
    intro c hc j hj
    have hl : c.place j < c.position.length := by
      have : c.position.length = c.rank := rfl
      unfold Comp.place
      split <;> omega
    rw [List.getElem?_eq_getElem hl, Comp.order, List.getD_eq_getElem?_getD]
    unfold Comp.place at hl ⊢
    rw [List.getElem?_eq_getElem hl]
    rfl
  have hmem : ∀ c ∈ comps, ∀ j < c.rank, c.order j ∈ c.position := fun c hc j hj => List.mem_of_getElem? (hplace c hc j hj)
  have hd1 : ∀ i : Fin rank, ∃ s : Fin rank, dout[(i : Nat)]? = some (s : Nat) := by
    intro i
    obtain ⟨c, hc, j, hj, e⟩ := hoff.cover (Nat.zero_le _) i.2
    exact ⟨⟨c.order j, hpos c hc _ (hmem c hc j hj)⟩, by rw [e, (a1 c hc j hj).2]⟩
  choose f hf using hd1
  have hsurj : Function.Surjective f := by
    intro s
    have : (s : Nat) ∈ comps.flatMap Comp.position := h.perm.symm.subset (by simp)
    obtain ⟨c, hc, hs⟩ := List.mem_flatMap.1 this
    obtain ⟨k, hk, hks⟩ := List.mem_iff_getElem.1 hs
    have hk' : k < c.rank := hk
    have hm := hoff.mem hc
    have hj : c.place (c.place k) = k := by unfold Comp.place; split <;> omega
    have hjlt : c.place k < c.rank := by unfold Comp.place; split <;> omega
    refine ⟨⟨c.offset + c.place k, by omega⟩, ?_⟩
    have e := hf ⟨c.offset + c.place k, by omega⟩
    have e2 := hplace c hc (c.place k) hjlt
    rw [hj, List.getElem?_eq_getElem hk, hks] at e2
    simp only at e
    rw [(a1 c hc _ hjlt).2, ← e2] at e
    exact Fin.ext (Option.some.inj e).symm
  have hbij : Function.Bijective f := Finite.injective_iff_bijective.1 (Finite.injective_iff_surjective.2 hsurj)
  let num : Fin rank ≃ Fin rank := (Equiv.ofBijective f hbij).symm
  have hnum : ∀ i, num.symm i = f i := fun i => rfl
  obtain ⟨din, e2, l3, a2, -⟩ := invertLoop_ok (dout := dout) (f := fun i => if hi : i < rank then (f ⟨i, hi⟩ : Nat) else 0)
    (l := List.range rank) (din := List.replicate rankMax undef) (fun i hi => by
      have hi := List.mem_range.1 hi
      rw [dif_pos hi, hf ⟨i, hi⟩]) (fun i hi => by
      have hi := List.mem_range.1 hi
      rw [dif_pos hi]
      have := (f ⟨i, hi⟩).2
      simp [rankMax]
      omega) (fun i hi j hj hij => by
      have hi := List.mem_range.1 hi
      have hj := List.mem_range.1 hj
      rw [dif_pos hi, dif_pos hj] at hij
      have := hbij.1 (Fin.ext hij)
      simpa using this)
  obtain ⟨tr, e3, l4, a3, -⟩ := trLoops_ok nd hoff (v := List.replicate rank ⟨0, 0, 0, 0, 0⟩) (by simp)
  rw [List.length_replicate] at l4
  let T : Nat → Transducer := fun i => (tr.getD i ⟨0, 0, 0, 0, 0⟩).T
  have hT : ∀ c ∈ comps, ∀ j < c.rank, tr[c.offset + j]? = some ⟨c.offset, T (c.offset + j)⟩ ∧ (T (c.offset + j)).Good (coxeter c.ty) j ∧
      (T (c.offset + j)).n = c.ty.states j := by
    intro c hc j hj
    obtain ⟨t, ht1, ht2⟩ := a3 c hc j hj
    have : T (c.offset + j) = t := by
      show (tr.getD (c.offset + j) ⟨0, 0, 0, 0, 0⟩).T = t
      rw [List.getD_eq_getElem?_getD, ht1]
      rfl
    rw [this]
    exact ⟨ht1, ht2⟩
  have hS := mkSys_ok hoff (T := T) fun c hc j hj => (hT c hc j hj).2.1
  have htwo := mkSys_two_le rank comps hoff T
  have htr : ∀ i < (mkSys rank comps T).n, tr[i]? = some ⟨(mkSys rank comps T).off i, (mkSys rank comps T).T i⟩ := by
    intro i hi
    obtain ⟨c, hc, j, hj, rfl⟩ := hoff.cover (Nat.zero_le _) hi
    simp only [mkSys]
    rw [compAt_eq hoff hc (by omega) (by omega)]
    exact (hT c hc j hj).1
  have hup : ∀ i < (mkSys rank comps T).n, upper[i]? = some ((mkSys rank comps T).top i) := by
    intro i hi
    obtain ⟨c, hc, j, hj, rfl⟩ := hoff.cover (Nat.zero_le _) hi
    simp only [mkSys]
    rw [compAt_eq hoff hc (by omega) (by omega)]
    exact (a1 c hc j hj).1
  obtain ⟨ms, e4, l5, a4, -⟩ := starLoop_ok nd hS htwo (l := List.range rank) (fun j hj => List.mem_range.1 hj)
    (W := ⟨tr, din, dout, List.replicate rank 0, upper⟩) htr hup (by simp [mkSys])
  simp only [List.length_replicate] at l5
  refine ⟨⟨tr, din, dout, ms, upper⟩, T, num, ?_, ⟨hS, hrank, l5, htwo, htr, hup, ?_, ?_, ?_⟩, ?_, l4, fun c hc j hj => (hT c hc j hj).2.2⟩
  · rw [WG.make, e1, Res.ok_bind]
    simp only
    rw [e2, Res.ok_bind, e3, Res.ok_bind, e4]
  · intro s
    have hs := (num s).2
    have := a2 (num s) (List.mem_range.2 hs)
    rw [dif_pos hs] at this
    have e : f ⟨num s, hs⟩ = s := num.symm_apply_apply s
    rwa [e] at this
  · intro s
    exact hf s
  · intro s hs
    exact a4 s (List.mem_range.2 hs)
  · intro s t
    by_cases hst : s = t
    · subst hst
      rw [Sys.cox, if_pos rfl]
      exact ((coxMatrix C).diagonal s).symm
    · have hne : (num s : Nat) ≠ num t := fun e => hst (num.injective (Fin.ext e))
      rw [Sys.cox, if_neg hne]
      obtain ⟨c, hc, i, hi, ei⟩ := hoff.cover (Nat.zero_le _) (num s).2
      obtain ⟨c', hc', j, hj, ej⟩ := hoff.cover (Nat.zero_le _) (num t).2
      have es : (s : Nat) = c.order i := by
        have := hf (num s)
        rw [show f (num s) = s from num.symm_apply_apply s, ei, (a1 c hc i hi).2] at this
        exact (Option.some.inj this).symm
      have et : (t : Nat) = c'.order j := by
        have := hf (num t)
        rw [show f (num t) = t from num.symm_apply_apply t, ej, (a1 c' hc' j hj).2] at this
        exact (Option.some.inj this).symm
      have hM : coxMatrix C s t = bondOrder (C s t * C t s) := if_neg hst
      have o1 : (mkSys rank comps T).off (num s) = c.offset := by
        simp only [mkSys]
        rw [ei, compAt_eq hoff hc (by omega) (by omega)]
      have o2 : (mkSys rank comps T).off (num t) = c'.offset := by
        simp only [mkSys]
        rw [ej, compAt_eq hoff hc' (by omega) (by omega)]
      have hm := hoff.mem hc
      have hm' := hoff.mem hc'
      rw [o1, o2, hM]
      by_cases ho : c.offset = c'.offset
      · have hcc : c = c' := hoff.unique hc hc' (j := 0) (j' := 0) (by omega) (by omega) (by omega)
        subst hcc
        have hij : i ≠ j := by rintro rfl; exact hne (by rw [ei, ej])
        have hpne : c.place i ≠ c.place j := by unfold Comp.place; split <;> omega
        rw [if_pos rfl, h.inside c hc s t (c.place i) (c.place j) hpne (by rw [hplace c hc i hi, es]) (by rw [hplace c hc j hj, et]),
          ← coxeter_bond (h.ranks c hc) hi hj hij]
        simp only [mkSys]
        rw [compAt_eq hoff hc (Nat.le_refl _) (by omega), ei, ej, Nat.add_sub_cancel_left, Nat.add_sub_cancel_left]
      · have hcc : c ≠ c' := fun e => ho (by rw [e])
        rw [if_neg ho, h.across c hc c' hc' hcc s t (by rw [es]; exact hmem c hc i hi) (by rw [et]; exact hmem c' hc' j hj)]
        rfl

end Verif.Weyl
