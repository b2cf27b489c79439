import Verif.Part.Orbits
import Mathlib.Data.List.NodupEquivFin
import Mathlib.Data.List.Sort
/-
C27: the iterator of a partition lists its classes completely, disjointly and in order.
-/
namespace Verif.Part
open Verif

variable {n : Nat} {P : Partition}

/-- in a list without duplicates, order of positions -/
theorem pair_sublist_pos {α : Type} {l : List α} (hnd : l.Nodup) {u v : Nat} (hu : u < l.length) (hv : v < l.length)
    (h : [l[u], l[v]].Sublist l) : u < v := by
  rw [List.sublist_iff_exists_fin_orderEmbedding_get_eq] at h
  obtain ⟨f, hf⟩ := h
  have q1 := hf ⟨0, by simp⟩
  have q2 := hf ⟨1, by simp⟩
  have hlt : (f ⟨0, by simp⟩).val < (f ⟨1, by simp⟩).val := by
    apply Fin.lt_def.1
    rw [f.lt_iff_lt]
    exact Fin.lt_def.2 (by simp)
  simp only [List.get_eq_getElem] at q1 q2
  have e1 := (hnd.getElem_inj_iff).1 q1
  have e2 := (hnd.getElem_inj_iff).1 q2
  omega

theorem pair_sublist_range {x y n : Nat} (h : x < y) (hy : y < n) : [x, y].Sublist (List.range n) := by
  have hz : x ∈ (List.range n).take y := by rw [List.take_range, List.mem_range]; omega
  have hz2 : y ∈ (List.range n).drop y := by
    rw [List.mem_drop_iff_getElem]
    exact ⟨0, by simp; omega, by simp⟩
  rw [← List.take_append_drop y (List.range n)]
  exact List.Sublist.append (List.singleton_sublist.2 hz) (List.singleton_sublist.2 hz2)

/-- the stable sort of `[0,n)` by a key is sorted by key, then by value -/
theorem sort_lex (key : Nat → Nat) (n : Nat) :
    ((List.range n).mergeSort (fun x y => !decide (key y < key x))).Pairwise
      (fun x y => key x < key y ∨ (key x = key y ∧ x < y)) := by
  let le : Nat → Nat → Bool := fun x y => !decide (key y < key x)
  have letrans : ∀ a b c : Nat, le a b = true → le b c = true → le a c = true := by
    intro a b c h1 h2; simp [le] at h1 h2 ⊢; omega
  have letotal : ∀ a b : Nat, (le a b || le b a) = true := by
    intro a b; simp [le]; omega
  have hperm : ((List.range n).mergeSort le).Perm (List.range n) := List.mergeSort_perm _ _
  have hsorted := List.pairwise_mergeSort letrans letotal (List.range n)
  have hnd : ((List.range n).mergeSort le).Nodup := hperm.nodup_iff.2 List.nodup_range
  show ((List.range n).mergeSort le).Pairwise _
  rw [List.pairwise_iff_getElem] at hsorted ⊢
  intro u v hu hv huv
  have h1 := hsorted u v hu hv huv
  simp only [le, Bool.not_eq_true', decide_eq_false_iff_not] at h1
  by_contra hc
  have hne : ((List.range n).mergeSort le)[u] ≠ ((List.range n).mergeSort le)[v] := by
    intro e; have := (hnd.getElem_inj_iff).1 e; omega
  have hun : ((List.range n).mergeSort le)[u] < n := List.mem_range.1 (hperm.mem_iff.1 (List.getElem_mem hu))
  have hle : le ((List.range n).mergeSort le)[v] ((List.range n).mergeSort le)[u] = true := by
    simp [le] at hc h1 ⊢; omega
  have hlt : ((List.range n).mergeSort le)[v] < ((List.range n).mergeSort le)[u] := by
    simp only [le] at hc h1 hne ⊢; omega
  have := List.pair_sublist_mergeSort letrans letotal hle (pair_sublist_range hlt hun)
  have := pair_sublist_pos hnd hv hu this
  omega

/-- class `c`, in increasing order -/
def members (P : Partition) (n c : Nat) : List Nat := (List.range n).filter (fun i => decide (P.classOf i = .ok c))

theorem mem_members {c i : Nat} : i ∈ members P n c ↔ i < n ∧ P.classOf i = .ok c := by
  simp [members]

theorem key_eq {i c : Nat} (h : P.classOf i = .ok c) : P.cls.getD i 0 = c := by
  rw [List.getD_eq_getElem?_getD, classOf_iff.1 h]; rfl

/-- the blocks, in order -/
def blocks (P : Partition) (n : Nat) : List (List Nat) := (List.range P.classCount).map (members P n)

/-- a partition of `[0,n)` into nonempty classes; the representatives can be any elements -/
structure Onto (n : Nat) (P : Partition) : Prop where
  size : P.cls.length = n
  total : ∀ i, i < n → ∃ c, P.classOf i = .ok c ∧ c < P.classCount
  inhab : ∀ c, c < P.classCount → ∃ j, P.classOf j = .ok c

theorem Valid.onto (h : Valid n P) : Onto n P :=
  ⟨h.size, h.total, fun c hc => by obtain ⟨j, _, h2, _⟩ := h.rep c hc; exact ⟨j, h2⟩⟩

theorem sort_eq (h : Onto n P) :
    (List.range n).mergeSort (fun x y => !decide (P.cls.getD y 0 < P.cls.getD x 0)) = (blocks P n).flatten := by
  apply List.Perm.eq_of_pairwise (le := fun x y => P.cls.getD x 0 < P.cls.getD y 0 ∨ (P.cls.getD x 0 = P.cls.getD y 0 ∧ x < y))
  · intro a b _ _ h1 h2; omega
  · exact sort_lex (fun x => P.cls.getD x 0) n
  · rw [blocks, List.pairwise_flatten]
    constructor
    · intro l hl
      obtain ⟨c, _, rfl⟩ := List.mem_map.1 hl
      have : (members P n c).Pairwise (· < ·) := List.Pairwise.filter _ List.pairwise_lt_range
      refine this.imp_of_mem ?_
      intro a b ha hb hab
      rw [mem_members] at ha hb
      exact .inr ⟨by rw [key_eq ha.2, key_eq hb.2], hab⟩
    · rw [List.pairwise_map]
      refine List.pairwise_lt_range.imp ?_
      intro c d hcd x hx y hy
      rw [mem_members] at hx hy
      exact .inl (by rw [key_eq hx.2, key_eq hy.2]; exact hcd)
  · refine (List.mergeSort_perm _ _).trans ?_
    rw [List.perm_ext_iff_of_nodup List.nodup_range]
    · intro i
      rw [List.mem_range, blocks, List.mem_flatten]
      constructor
      · intro hi
        obtain ⟨c, h1, h2⟩ := h.total i hi
        exact ⟨members P n c, List.mem_map_of_mem (List.mem_range.2 h2), mem_members.2 ⟨hi, h1⟩⟩
      · rintro ⟨l, hl, hi⟩
        obtain ⟨c, _, rfl⟩ := List.mem_map.1 hl
        exact (mem_members.1 hi).1
    · rw [blocks, List.nodup_flatten]
      constructor
      · intro l hl
        obtain ⟨c, _, rfl⟩ := List.mem_map.1 hl
        exact List.nodup_range.filter _
      · rw [List.pairwise_map]
        refine List.pairwise_lt_range.imp ?_
        intro c d hcd x hx hy
        rw [mem_members] at hx hy
        rw [hx.2] at hy
        have := hy.2
        injection this; omega

/-! ### class boundaries -/

/-- start positions of blocks -/
def starts : Nat → List (List Nat) → List Nat
  | _, [] => []
  | i, B :: Bs => i :: starts (i + B.length) Bs

theorem stopLoop_skip (L rest : List Nat) (i this : Nat) (stop : List Nat) (hL : ∀ x ∈ L, P.classOf x = .ok this) :
    stopLoop P (L ++ rest) i this stop = stopLoop P rest (i + L.length) this stop := by
  induction L generalizing i with
  | nil => rfl
  | cons x L ih =>
    rw [List.cons_append, stopLoop, hL x (by simp), Res.ok_bind, if_neg (by simp), ih (i + 1) (fun y hy => hL y (by simp [hy]))]
    congr 1
    rw [List.length_cons]; omega

theorem stopLoop_blocks (cs : List Nat) (i this : Nat) (stop : List Nat)
    (hne : ∀ c ∈ cs, members P n c ≠ []) (hch : (this :: cs).Pairwise (· ≠ ·)) :
    stopLoop P (cs.map (members P n)).flatten i this stop = .ok (stop ++ starts i (cs.map (members P n))) := by
  induction cs generalizing i this stop with
  | nil => simp [stopLoop, starts]
  | cons c cs ih =>
    rw [List.pairwise_cons] at hch
    have hc : this ≠ c := hch.1 c (by simp)
    rw [List.map_cons, List.flatten_cons]
    cases hm : members P n c with
    | nil => exact absurd hm (hne c (by simp))
    | cons x L =>
      have hx : P.classOf x = .ok c := (mem_members.1 (show x ∈ members P n c by rw [hm]; simp)).2
      rw [List.cons_append, stopLoop, hx, Res.ok_bind, if_pos (Ne.symm hc), stopLoop_skip _ _ _ _ _ (fun y hy =>
        (mem_members.1 (show y ∈ members P n c by rw [hm]; simp [hy])).2), ih _ _ _ (fun d hd => hne d (by simp [hd])) hch.2]
      rw [starts, List.length_cons, List.append_assoc]
      congr 3
      rw [show i + 1 + L.length = i + (L.length + 1) by omega]
      rfl

theorem starts_head (i : Nat) (Bs : List (List Nat)) (N : Nat) (h : i + Bs.flatten.length = N) : (starts i Bs ++ [N, N])[0]? = some i := by
  cases Bs with
  | nil => simp at h; simp [starts, h]
  | cons B Bs => simp [starts]

theorem starts_length (i : Nat) (Bs : List (List Nat)) : (starts i Bs).length = Bs.length := by
  induction Bs generalizing i with
  | nil => rfl
  | cons B Bs ih => simp [starts, ih]

theorem collect_spec (Bs : List (List Nat)) (pre A : List Nat) (k : Nat) (it : Iter) (hne : ∀ B ∈ Bs, B ≠ [])
    (hd : it.data = pre ++ Bs.flatten) (hf : it.first = pre.length)
    (hst : it.stop = A ++ (starts pre.length Bs ++ [it.data.length, it.data.length]))
    (hcur : it.cur = A.length + 1) (hs : it.stop[it.cur]? = some it.second) (hk : Bs.length < k) : collect k it = .ok Bs := by
  induction Bs generalizing pre A k it with
  | nil =>
    cases k with
    | zero => omega
    | succ k =>
      rw [collect, if_neg (by simp [hf, hd])]
  | cons B Bs ih =>
    cases k with
    | zero => omega
    | succ k =>
      have hB : B.length ≠ 0 := by simpa using hne B (by simp)
      have hdl : it.data.length = pre.length + (B.length + Bs.flatten.length) := by rw [hd]; simp
      rw [collect, if_pos (by rw [hf, hdl]; omega)]
      have hst' : it.stop = (A ++ [pre.length]) ++ (starts (pre ++ B).length Bs ++ [it.data.length, it.data.length]) := by
        rw [hst, starts]; simp
      have hsec : it.second = (pre ++ B).length := by
        rw [hst', hcur, List.getElem?_append_right (by simp)] at hs
        rw [show A.length + 1 - (A ++ [pre.length]).length = 0 by simp, starts_head _ _ _ (by rw [hdl]; simp; omega)] at hs
        exact (Option.some.inj hs).symm
      have hnext : ∃ e, it.stop[it.cur + 1]? = some e := by
        have : it.cur + 1 < it.stop.length := by rw [hst', hcur]; simp [starts_length]; omega
        exact ⟨_, List.getElem?_eq_getElem this⟩
      obtain ⟨e, he⟩ := hnext
      rw [Iter.next, get_iff.2 he, Res.ok_bind, Res.pure_eq, Res.ok_bind]
      rw [ih (pre ++ B) (A ++ [pre.length]) k ⟨it.data, it.stop, it.second, e, it.cur + 1⟩ (fun C hC => hne C (by simp [hC])) (by rw [hd]; simp)
        hsec hst' (by simp [hcur]) he (by simp at hk; omega), Res.ok_bind, Res.pure_eq]
      congr 2
      rw [hf, hsec, hd]
      simp

theorem length_le_flatten {Bs : List (List Nat)} (h : ∀ B ∈ Bs, B ≠ []) : Bs.length ≤ Bs.flatten.length := by
  induction Bs with
  | nil => simp
  | cons B Bs ih =>
    have h1 : B.length ≠ 0 := by simpa using h B (by simp)
    have := ih (fun C hC => h C (by simp [hC]))
    simp only [List.length_cons, List.flatten_cons, List.length_append]
    omega

/-- C27: an iteration over a partition produces its classes in order of their number, each as the increasing list of
exactly its elements.  This holds also if the representatives are not the least elements. -/
theorem C27_iterator_any (h : Onto n P) :
    traverse P = .ok ((List.range P.classCount).map
      (fun c => (List.range n).filter (fun i => decide (P.classOf i = .ok c)))) := by
  show traverse P = .ok (blocks P n)
  have hne : ∀ c, c < P.classCount → members P n c ≠ [] := by
    intro c hc e
    obtain ⟨j, h2⟩ := h.inhab c hc
    have : j ∈ members P n c := mem_members.2 ⟨by rw [← h.size]; exact lt_of_get? (classOf_iff.1 h2), h2⟩
    rw [e] at this; cases this
  have hneB : ∀ B ∈ blocks P n, B ≠ [] := by
    intro B hB
    obtain ⟨c, hc, rfl⟩ := List.mem_map.1 hB
    exact hne c (List.mem_range.1 hc)
  unfold traverse iter
  by_cases h0 : P.cls.length = 0
  · have hn : n = 0 := by rw [← h.size, h0]
    have : blocks P n = [] := by
      cases hb : blocks P n with
      | nil => rfl
      | cons B Bs =>
        have hB := hneB B (by rw [hb]; simp)
        have : B ∈ blocks P n := by rw [hb]; simp
        obtain ⟨c, _, rfl⟩ := List.mem_map.1 this
        rw [members, hn] at hB; simp at hB
    rw [this, if_pos h0, h0]
    rfl
  · rw [if_neg h0, h.size]
    simp only
    rw [sort_eq h]
    have hcc : P.classCount ≠ 0 := by
      obtain ⟨c, _, h2⟩ := h.total 0 (by rw [← h.size]; omega)
      omega
    obtain ⟨s, hs⟩ := Nat.exists_eq_succ_of_ne_zero hcc
    have hrange : List.range P.classCount = 0 :: (List.range s).map (· + 1) := by
      rw [hs, Nat.succ_eq_add_one, List.range_succ_eq_map]
    have hbl : blocks P n = members P n 0 :: ((List.range s).map (· + 1)).map (members P n) := by
      rw [blocks, hrange, List.map_cons]
    have hlen : (blocks P n).flatten.length = n := by
      rw [← sort_eq h, List.length_mergeSort, List.length_range]
    cases hm : members P n 0 with
    | nil => exact absurd hm (hne 0 (by omega))
    | cons x L =>
      have hx : P.classOf x = .ok 0 := (mem_members.1 (show x ∈ members P n 0 by rw [hm]; simp)).2
      have hget : Vec.get (blocks P n).flatten 0 = .ok x := by
        rw [get_iff, hbl, hm]; simp
      rw [hget, Res.ok_bind, hx, Res.ok_bind]
      have hstop : stopLoop P (blocks P n).flatten 0 0 [0] = .ok (starts 0 (blocks P n)) := by
        rw [hbl, List.flatten_cons, stopLoop_skip _ _ _ _ _ (fun y hy => (mem_members.1 hy).2), stopLoop_blocks]
        · simp [starts]
        · intro c hc
          obtain ⟨d, hd, rfl⟩ := List.mem_map.1 hc
          exact hne (d + 1) (by have := List.mem_range.1 hd; omega)
        · rw [← hrange]
          exact List.pairwise_lt_range.imp (fun h => Nat.ne_of_lt h)
      rw [hstop, Res.ok_bind, rewind]
      have hg0 : Vec.get (starts 0 (blocks P n) ++ [(blocks P n).flatten.length] ++ [(blocks P n).flatten.length]) 0 = .ok 0 := by
        rw [get_iff, List.append_assoc]
        exact starts_head 0 _ _ (by simp)
      have hg1 : ∃ e, (starts 0 (blocks P n) ++ [(blocks P n).flatten.length] ++ [(blocks P n).flatten.length])[1]? = some e :=
        ⟨_, List.getElem?_eq_getElem (by simp)⟩
      obtain ⟨e, he⟩ := hg1
      rw [hg0, Res.ok_bind, get_iff.2 he, Res.ok_bind, Res.pure_eq, Res.ok_bind]
      refine collect_spec (blocks P n) [] [] (n + 1) _ hneB (by simp) rfl (by simp) rfl he ?_
      have := length_le_flatten hneB
      omega

/-- C27: the case of a valid partition -/
theorem C27_iterator (h : Valid n P) :
    traverse P = .ok ((List.range P.classCount).map
      (fun c => (List.range n).filter (fun i => decide (P.classOf i = .ok c)))) := C27_iterator_any h.onto

/-- every element occurs in exactly one of the lists -/
theorem C27_iterator_complete (h : Valid n P) :
    ∃ Bs, traverse P = .ok Bs ∧ Bs.flatten.Perm (List.range n) ∧ (∀ B ∈ Bs, B ≠ []) ∧
      ∀ x y, (∃ B ∈ Bs, x ∈ B ∧ y ∈ B) ↔ (x < n ∧ y < n ∧ P.classOf x = P.classOf y) := by
  refine ⟨blocks P n, C27_iterator h, ?_, ?_, ?_⟩
  · rw [← sort_eq h.onto]; exact List.mergeSort_perm _ _
  · intro B hB
    obtain ⟨c, hc, rfl⟩ := List.mem_map.1 hB
    obtain ⟨j, h1, h2, _⟩ := h.rep c (List.mem_range.1 hc)
    intro e
    have : j ∈ members P n c := mem_members.2 ⟨by rw [← h.size]; exact lt_of_get? (classOf_iff.1 h2), h2⟩
    rw [e] at this; cases this
  · intro x y
    constructor
    · rintro ⟨B, hB, hx, hy⟩
      obtain ⟨c, hc, rfl⟩ := List.mem_map.1 hB
      rw [mem_members] at hx hy
      exact ⟨hx.1, hy.1, by rw [hx.2, hy.2]⟩
    · rintro ⟨hx, hy, e⟩
      obtain ⟨c, h1, h2⟩ := h.total x hx
      exact ⟨members P n c, List.mem_map_of_mem (List.mem_range.2 h2), mem_members.2 ⟨hx, h1⟩, mem_members.2 ⟨hy, by rw [← e, h1]⟩⟩

-- non-trivial valid partition, by C27_make
example : ∃ P, make [7, 3, 7, 9, 3] = .ok P ∧ Valid 5 P ∧ traverse P = .ok [[0, 2], [1, 4], [3]] := by
  obtain ⟨P, h1, h2, _⟩ := C27_make [7, 3, 7, 9, 3]
  refine ⟨P, h1, h2, ?_⟩
  have e : make [7, 3, 7, 9, 3] = .ok ⟨[0, 1, 0, 2, 1], [0, 1, 3]⟩ := by decide
  rw [e] at h1
  injection h1 with h1
  subst h1
  rw [C27_iterator h2]
  decide

end Verif.Part
