import Verif.Axis.TabledEq
import Verif.Pre.Props
/-
Grouped type definitions: what the table holds before the search for duplicates.
-/
namespace Verif.Axis
open Verif Relation

/-- the table has no type constructors with arguments -/
abbrev NoArgs (m : TMap) : Prop := ∀ b ∈ m, b.arity = 0

theorem arityOf_zero {m : TMap} (h : NoArgs m) (n : Nat) : arityOf m n = 0 := by
  unfold arityOf
  cases hb : m[n]? with
  | none => rfl
  | some b => exact h b (List.mem_of_getElem? hb)

theorem hasDesc_eq {m : TMap} (h : NoArgs m) (t : TT) : hasDesc m t = t.composite := by
  cases t <;> simp [hasDesc, TT.composite, arityOf_zero h]

theorem record_comp {m : TMap} (t : TT) (ht : t.composite = true) (arr : List TData) (out : List Nat) :
    record m t arr out = ((recordL m t.comps arr []).1 ++ [⟨t, (recordL m t.comps arr []).2⟩], out ++ [(recordL m t.comps arr []).1.length]) := by
  cases t with
  | row c => simp [record, recordL, TT.comps]
  | func a r => simp [record, recordL, TT.comps]
  | tuple l =>
    have : l.isEmpty = false := by simpa [TT.composite] using ht
    simp [record, TT.comps, this]
  | union l => simp [record, TT.comps]
  | _ => simp [TT.composite] at ht

/-- the reference to a type of the group -/
def newRef (sz : Nat) : TT → List Nat
  | .tabled nr _ => if sz ≤ nr then [nr - sz] else []
  | _ => []

theorem record_leaf {m : TMap} (h : NoArgs m) (t : TT) (ht : t.composite = false) (arr : List TData) (out : List Nat) : record m t arr out = (arr, out ++ newRef m.length t) := by
  cases t with
  | row c => simp [TT.composite] at ht
  | func a r => simp [TT.composite] at ht
  | tuple l =>
    have : l.isEmpty = true := by simpa [TT.composite] using ht
    simp [record, newRef, this]
  | union l => simp [TT.composite] at ht
  | tabled nr args =>
    rw [record, newRef]
    by_cases hn : nr < m.length
    · rw [if_pos hn, if_neg (by rw [arityOf_zero h]; omega), if_neg (by omega), List.append_nil]
    · rw [if_neg hn, if_pos (by omega)]
  | _ => simp [record, newRef]

/-- `o` lists the places in `arr` of the composite types of `l`, and the references to types of the group; the first `d` places are those of the group -/
inductive Covers (d sz : Nat) (arr : List TData) : List TT → List Nat → Prop
  | nil : Covers d sz arr [] []
  | comp {t : TT} {l : List TT} {j : Nat} {o : List Nat} {x : TData} : t.composite = true → d ≤ j → arr[j]? = some x → x.tp = t → Covers d sz arr l o → Covers d sz arr (t :: l) (j :: o)
  | leaf {t : TT} {l : List TT} {o : List Nat} : t.composite = false → Covers d sz arr l o → Covers d sz arr (t :: l) (newRef sz t ++ o)

theorem Covers.mono {d sz : Nat} {arr arr' : List TData} (h : ∀ j x, d ≤ j → arr[j]? = some x → arr'[j]? = some x) {l : List TT} {o : List Nat} (hc : Covers d sz arr l o) :
    Covers d sz arr' l o := by
  induction hc with
  | nil => exact .nil
  | comp h1 h2 h3 h4 _ ih => exact .comp h1 h2 (h _ _ h2 h3) h4 ih
  | leaf h1 _ ih => exact .leaf h1 ih

theorem Covers.append {d sz : Nat} {arr : List TData} {l l' : List TT} {o o' : List Nat} (h : Covers d sz arr l o) (h' : Covers d sz arr l' o') : Covers d sz arr (l ++ l') (o ++ o') := by
  induction h with
  | nil => exact h'
  | comp h1 h2 h3 h4 _ ih => exact .comp h1 h2 h3 h4 ih
  | leaf h1 _ ih => rw [List.append_assoc]; exact .leaf h1 ih

/-- an entry for a type -/
structure Node (d sz : Nat) (arr : List TData) (x : TData) : Prop where
  covers : Covers d sz arr x.tp.comps x.out
  closed : Closed x.tp
  plain : Plain (sz + d) x.tp
  notTabled : x.tp.isTabled = false

theorem Node.mono {d sz : Nat} {arr arr' : List TData} (h : ∀ j x, d ≤ j → arr[j]? = some x → arr'[j]? = some x) {x : TData} (hx : Node d sz arr x) : Node d sz arr' x :=
  ⟨hx.covers.mono h, hx.closed, hx.plain, hx.notTabled⟩

theorem getElem?_append_some {α : Type} {l l' : List α} {j : Nat} {x : α} (h : l[j]? = some x) : (l ++ l')[j]? = some x := by
  rw [List.getElem?_append_left (List.getElem?_eq_some_iff.1 h).1, h]

theorem closed_comps {t c : TT} (h : Closed t) (hc : c ∈ t.comps) : Closed c := by
  cases t with
  | func a r =>
    simp only [TT.comps, List.mem_cons, List.not_mem_nil, or_false] at hc
    rcases hc with rfl | rfl
    · exact h.1
    · exact h.2
  | row c' =>
    simp only [TT.comps, List.mem_cons, List.not_mem_nil, or_false] at hc
    subst hc
    exact h
  | tuple l => exact closedL_iff.1 h c hc
  | union l => exact closedL_iff.1 h c hc
  | _ => simp [TT.comps] at hc

theorem composite_notTabled {t : TT} (h : t.composite = true) : t.isTabled = false := by
  cases t <;> first | rfl | simp [TT.composite] at h

theorem parts_comp {t : TT} (h : t.composite = true) : t.parts = 1 + partsL t.comps := by
  cases t with
  | func a r => simp [TT.parts, TT.comps, partsL]
  | row c => simp [TT.parts, TT.comps, partsL]
  | tuple l =>
    have : l.isEmpty = false := by simpa [TT.composite] using h
    simp [TT.parts, TT.comps, this]
  | union l => simp [TT.parts, TT.comps]
  | _ => simp [TT.composite] at h

theorem parts_leaf {t : TT} (h : t.composite = false) : t.parts = 0 := by
  cases t with
  | func a r => simp [TT.composite] at h
  | row c => simp [TT.composite] at h
  | tuple l =>
    have : l.isEmpty = true := by simpa [TT.composite] using h
    simp [TT.parts, this]
  | union l => simp [TT.composite] at h
  | _ => rfl

/-- outcome of `record` -/
def Recorded (d : Nat) (m : TMap) (arr : List TData) (l : List TT) (ext : List TData) (o : List Nat) : Prop :=
  Covers d m.length (arr ++ ext) l o ∧ (∀ x ∈ ext, Node d m.length (arr ++ ext) x) ∧ ext.length = partsL l

theorem record_spec {m : TMap} (h : NoArgs m) (d : Nat) (t : TT) : Closed t → Plain (m.length + d) t → ∀ arr out, d ≤ arr.length →
    ∃ ext o, record m t arr out = (arr ++ ext, out ++ o) ∧ Recorded d m arr [t] ext o := by
  have hL : ∀ l : List TT, (∀ t ∈ l, Closed t → Plain (m.length + d) t → ∀ arr out, d ≤ arr.length → ∃ ext o, record m t arr out = (arr ++ ext, out ++ o) ∧ Recorded d m arr [t] ext o) →
      (∀ t ∈ l, Closed t) → (∀ t ∈ l, Plain (m.length + d) t) → ∀ arr out, d ≤ arr.length → ∃ ext o, recordL m l arr out = (arr ++ ext, out ++ o) ∧ Recorded d m arr l ext o := by
    intro l
    induction l with
    | nil => intro _ _ _ arr out _; exact ⟨[], [], by simp [recordL], .nil, by simp, rfl⟩
    | cons a l ih =>
      intro hl h1 h2 arr out ha
      obtain ⟨ext, o, e, q1, q2, q3⟩ := hl a (by simp) (h1 a (by simp)) (h2 a (by simp)) arr out ha
      obtain ⟨ext', o', e', q1', q2', q3'⟩ := ih (fun t ht => hl t (by simp [ht])) (fun t ht => h1 t (by simp [ht])) (fun t ht => h2 t (by simp [ht])) (arr ++ ext) (out ++ o)
        (by rw [List.length_append]; omega)
      refine ⟨ext ++ ext', o ++ o', ?_, ?_, ?_, ?_⟩
      · rw [recordL, e]
        simp only
        rw [e']
        simp
      · rw [← List.append_assoc]
        exact (q1.mono fun j x _ hx => getElem?_append_some hx).append q1'
      · intro x hx
        rw [← List.append_assoc]
        rcases List.mem_append.1 hx with hx | hx
        · exact (q2 x hx).mono fun j x _ hx => getElem?_append_some hx
        · exact q2' x hx
      · simp only [List.length_append, q3, q3', partsL]; omega
  have main : ∀ t : TT, (∀ c ∈ t.comps, Closed c → Plain (m.length + d) c → ∀ arr out, d ≤ arr.length → ∃ ext o, record m c arr out = (arr ++ ext, out ++ o) ∧ Recorded d m arr [c] ext o) →
      Closed t → Plain (m.length + d) t → ∀ arr out, d ≤ arr.length → ∃ ext o, record m t arr out = (arr ++ ext, out ++ o) ∧ Recorded d m arr [t] ext o := by
    intro t ht h1 h2 arr out ha
    cases hc : t.composite with
    | false =>
      refine ⟨[], newRef m.length t, by rw [record_leaf h t hc, List.append_nil], ?_, by simp, by simp [partsL, parts_leaf hc]⟩
      have := Covers.leaf (d := d) (sz := m.length) (arr := arr ++ []) hc .nil
      rwa [List.append_nil (newRef _ _)] at this
    | true =>
      obtain ⟨ext, o, e, q1, q2, q3⟩ := hL t.comps ht (fun c hc => closed_comps h1 hc) (fun c hc => plain_comps h2 hc) arr [] ha
      rw [List.nil_append] at e
      have hm : ∀ j (x : TData), d ≤ j → (arr ++ ext)[j]? = some x → (arr ++ (ext ++ [⟨t, o⟩]))[j]? = some x := fun j x _ hx => by
        rw [← List.append_assoc]; exact getElem?_append_some hx
      refine ⟨ext ++ [⟨t, o⟩], [(arr ++ ext).length], ?_, ?_, ?_, ?_⟩
      · rw [record_comp t hc, e, List.append_assoc]
      · refine .comp (x := ⟨t, o⟩) hc (by rw [List.length_append]; omega) ?_ rfl .nil
        rw [← List.append_assoc, List.getElem?_append_right (le_refl _), Nat.sub_self]
        rfl
      · intro x hx
        rcases List.mem_append.1 hx with hx | hx
        · exact (q2 x hx).mono hm
        · rw [List.mem_singleton.1 hx]
          exact ⟨q1.mono hm, h1, h2, composite_notTabled hc⟩
      · simp only [List.length_append, q3, partsL, parts_comp hc, List.length_singleton]; omega
  induction t using TT.ind with
  | func a r ha hr =>
      refine main _ fun c hc => ?_
      simp only [TT.comps, List.mem_cons, List.not_mem_nil, or_false] at hc
      rcases hc with rfl | rfl
      · exact ha
      · exact hr
  | row c hc =>
      refine main _ fun c' hc' => ?_
      simp only [TT.comps, List.mem_cons, List.not_mem_nil, or_false] at hc'
      subst hc'
      exact hc
  | tuple l hl => exact main _ hl
  | union l hl => exact main _ hl
  | _ => exact main _ (by simp [TT.comps])

/-- state while `type_array` is filled; `pre` are the definitions done -/
structure Filled (m : TMap) (d : Nat) (pre : List (Nat × TT)) (arr : List TData) : Prop where
  len : arr.length = d + (pre.map fun q => max 1 q.2.parts - 1).sum
  nodes : ∀ j x, d ≤ j → arr[j]? = some x → Node d m.length arr x
  done : ∀ (j : Nat) (q : Nat × TT), pre[j]? = some q → ∃ x, arr[j]? = some x ∧ x.tp = q.2 ∧ Node d m.length arr x

theorem fill_spec {m : TMap} (h : NoArgs m) (d : Nat) (rest pre : List (Nat × TT)) (arr : List TData) (hd : pre.length + rest.length = d)
    (hok : ∀ q ∈ rest, Closed q.2 ∧ Plain (m.length + d) q.2 ∧ q.2.isTabled = false) (hf : Filled m d pre arr) :
    ∃ arr', fillLoop m pre.length rest arr = .ok arr' ∧ Filled m d (pre ++ rest) arr' := by
  induction rest generalizing pre arr with
  | nil => exact ⟨arr, rfl, by rwa [List.append_nil]⟩
  | cons q rest ih =>
    obtain ⟨q1, q2, q3⟩ := hok q (by simp)
    have hlen : d ≤ arr.length := by rw [hf.len]; omega
    have hpre : pre.length < d := by rw [← hd]; simp
    -- one step: the table grows by `ext`, and the slot is filled with `x`
    have step : ∀ (ext : List TData) (x : TData), x.tp = q.2 → ext.length = max 1 q.2.parts - 1 → (∀ y ∈ ext, Node d m.length (arr ++ ext) y) → Covers d m.length (arr ++ ext) q.2.comps x.out →
        Filled m d (pre ++ [q]) ((arr ++ ext).set pre.length x) := by
      intro ext x hx hn hy hc
      have hm : ∀ j (y : TData), d ≤ j → (arr ++ ext)[j]? = some y → ((arr ++ ext).set pre.length x)[j]? = some y := fun j y hj hy => by
        rw [List.getElem?_set_ne (by omega), hy]
      have hm0 : ∀ j (y : TData), d ≤ j → arr[j]? = some y → ((arr ++ ext).set pre.length x)[j]? = some y := fun j y hj hy => hm j y hj (getElem?_append_some hy)
      refine ⟨?_, fun j y hj e => ?_, fun j q' e => ?_⟩
      · simp only [List.length_set, List.length_append, hf.len, hn, List.map_append, List.sum_append, List.map_cons, List.map_nil, List.sum_cons, List.sum_nil]
        omega
      · rw [List.getElem?_set_ne (by omega)] at e
        by_cases hja : j < arr.length
        · rw [List.getElem?_append_left hja] at e
          exact (hf.nodes j y hj e).mono hm0
        · rw [List.getElem?_append_right (by omega)] at e
          exact (hy y (List.mem_of_getElem? e)).mono hm
      · by_cases hj : j < pre.length
        · rw [List.getElem?_append_left hj] at e
          obtain ⟨y, e1, e2, e3⟩ := hf.done j q' e
          exact ⟨y, by rw [List.getElem?_set_ne (by omega)]; exact getElem?_append_some e1, e2, e3.mono hm0⟩
        · have hj' : j = pre.length := by
            have := (List.getElem?_eq_some_iff.1 e).1
            simp at this
            omega
          subst hj'
          rw [List.getElem?_append_right (le_refl _), Nat.sub_self] at e
          cases e
          refine ⟨x, ?_, hx, ?_⟩
          · rw [List.getElem?_set_self (by rw [List.length_append]; omega)]
          · exact ⟨by rw [hx]; exact hc.mono hm, by rw [hx]; exact q1, by rw [hx]; exact q2, by rw [hx]; exact q3⟩
    have fin : ∀ arr', Filled m d (pre ++ [q]) arr' → ∃ arr'', fillLoop m (pre.length + 1) rest arr' = .ok arr'' ∧ Filled m d (pre ++ q :: rest) arr'' := fun arr' hf' => by
      obtain ⟨a, e, h'⟩ := ih (pre ++ [q]) arr' (by simp at hd ⊢; omega) (fun q' hq' => hok q' (by simp [hq'])) hf'
      rw [List.length_append, List.length_singleton] at e
      exact ⟨a, e, by simpa using h'⟩
    rw [fillLoop, hasDesc_eq h]
    cases hc : q.2.composite with
    | false =>
      have hcomps : q.2.comps = [] := by
        cases hq : q.2 with
        | tuple l =>
          rw [hq] at hc
          have : l.isEmpty = true := by simpa [TT.composite] using hc
          simpa [TT.comps] using this
        | func a r => rw [hq] at hc; simp [TT.composite] at hc
        | row c => rw [hq] at hc; simp [TT.composite] at hc
        | union l => rw [hq] at hc; simp [TT.composite] at hc
        | _ => rfl
      rw [if_neg (by decide), Vec.put_ok (by omega), Res.ok_bind]
      refine fin _ ?_
      have := step [] ⟨q.2, []⟩ rfl (by simp [parts_leaf hc]) (by simp) (by rw [hcomps]; exact .nil)
      rwa [List.append_nil] at this
    | true =>
      have hL : ∃ ext o, recordL m q.2.comps arr [] = (arr ++ ext, o) ∧ Recorded d m arr q.2.comps ext o := by
        have : ∀ (l : List TT) (out : List Nat) (arr : List TData), (∀ c ∈ l, Closed c ∧ Plain (m.length + d) c) → d ≤ arr.length →
            ∃ ext o, recordL m l arr out = (arr ++ ext, out ++ o) ∧ Recorded d m arr l ext o := by
          intro l
          induction l with
          | nil => intro out arr _ _; exact ⟨[], [], by simp [recordL], .nil, by simp, rfl⟩
          | cons a l ih =>
            intro out arr hl ha
            obtain ⟨ext, o, e, q1, q2, q3⟩ := record_spec h d a (hl a (by simp)).1 (hl a (by simp)).2 arr out ha
            obtain ⟨ext', o', e', q1', q2', q3'⟩ := ih (out ++ o) (arr ++ ext) (fun t ht => hl t (by simp [ht])) (by rw [List.length_append]; omega)
            refine ⟨ext ++ ext', o ++ o', ?_, ?_, ?_, ?_⟩
            · rw [recordL, e]
              simp only
              rw [e']
              simp
            · rw [← List.append_assoc]
              exact (q1.mono fun j x _ hx => getElem?_append_some hx).append q1'
            · intro x hx
              rw [← List.append_assoc]
              rcases List.mem_append.1 hx with hx | hx
              · exact (q2 x hx).mono fun j x _ hx => getElem?_append_some hx
              · exact q2' x hx
            · simp only [List.length_append, q3, q3', partsL]; omega
        obtain ⟨ext, o, e, r⟩ := this q.2.comps [] arr (fun c hc => ⟨closed_comps q1 hc, plain_comps q2 hc⟩) hlen
        exact ⟨ext, o, by simpa using e, r⟩
      obtain ⟨ext, o, e, r1, r2, r3⟩ := hL
      rw [if_pos rfl]
      simp only [record_comp q.2 hc, e, List.getLast?_append, List.getLast?_singleton, Option.some_or, List.dropLast_concat]
      rw [Vec.put_ok (by rw [List.length_append]; omega), Res.ok_bind]
      exact fin _ (step ext ⟨q.2, o⟩ rfl (by rw [r3, parts_comp hc]; omega) r2 r1)

/-! ### Entries made from nodes -/

/-- a component and what it is replaced by -/
inductive Rw (d sz : Nat) (arr : List TData) (out : List Nat) : TT → TT → Prop
  | comp {c : TT} {j : Nat} {x : TData} : c.composite = true → d ≤ j → arr[j]? = some x → x.tp = c → j ∈ out → Rw d sz arr out c (.tabled (sz + j) [])
  | leaf {c : TT} : c.composite = false → (∀ j ∈ newRef sz c, j ∈ out) → Rw d sz arr out c c

theorem Rw.mono {d sz : Nat} {arr : List TData} {o o' : List Nat} (h : ∀ j ∈ o, j ∈ o') {c c' : TT} (hr : Rw d sz arr o c c') : Rw d sz arr o' c c' := by
  cases hr with
  | comp h1 h2 h3 h4 h5 => exact .comp h1 h2 h3 h4 (h _ h5)
  | leaf h1 h2 => exact .leaf h1 fun j hj => h j (h2 j hj)

theorem rewrite_leaf (nd : Bool) {m : TMap} (h : NoArgs m) {n : Nat} {t : TT} (ht : t.composite = false) (hp : Plain n t) (o : List Nat) :
    rewrite nd m 0 t (newRef m.length t ++ o) = .ok (t, o) := by
  unfold rewrite
  rw [hasDesc_eq h, ht, if_neg (by decide)]
  cases t with
  | tabled nr args =>
    obtain ⟨_, rfl⟩ := hp
    simp only [newRef]
    by_cases hn : m.length ≤ nr
    · rw [if_pos hn, if_pos hn]
      simp only [List.singleton_append]
      rw [Res.assertIn_bind nd (by simp; omega)]
      simp only [localRef, List.range_zero, List.map_nil]
      rw [Nat.add_sub_cancel' hn]
    · rw [if_neg hn, if_neg hn]
      rfl
  | _ => rfl

theorem rewriteL_spec (nd : Bool) {m : TMap} (h : NoArgs m) {d n : Nat} {arr : List TData} {l : List TT} {o : List Nat} (hc : Covers d m.length arr l o) (hp : ∀ c ∈ l, Plain n c) :
    ∃ l', rewriteL nd m 0 l o = .ok l' ∧ List.Forall₂ (Rw d m.length arr o) l l' := by
  induction hc with
  | nil => exact ⟨[], rfl, .nil⟩
  | comp h1 h2 h3 h4 _ ih =>
    rename_i t l j o x _
    obtain ⟨l', e, hf⟩ := ih fun c hc => hp c (by simp [hc])
    refine ⟨.tabled (m.length + j) [] :: l', ?_, .cons (.comp h1 h2 h3 h4 (by simp)) (hf.imp fun _ _ hr => hr.mono (by simp +contextual))⟩
    have e1 : rewrite nd m 0 t (j :: o) = .ok (.tabled (m.length + j) [], o) := by
      unfold rewrite
      rw [hasDesc_eq h, h1, if_pos rfl]
      rfl
    rw [rewriteL, e1, Res.ok_bind, e, Res.ok_bind]
  | leaf h1 _ ih =>
    rename_i t l o _
    obtain ⟨l', e, hf⟩ := ih fun c hc => hp c (by simp [hc])
    refine ⟨t :: l', ?_, .cons (.leaf h1 fun j hj => by simp [hj]) (hf.imp fun _ _ hr => hr.mono (by simp +contextual))⟩
    rw [rewriteL, rewrite_leaf nd h h1 (hp t (by simp)), Res.ok_bind, e, Res.ok_bind]

theorem rewriteL_cons {nd : Bool} {m : TMap} {n : Nat} {t : TT} {l l' : List TT} {o : List Nat} (h : rewriteL nd m n (t :: l) o = .ok l') :
    ∃ t' o' l'', rewrite nd m n t o = .ok (t', o') ∧ rewriteL nd m n l o' = .ok l'' ∧ l' = t' :: l'' := by
  rw [rewriteL] at h
  cases hr : rewrite nd m n t o with
  | ok r =>
    rw [hr, Res.ok_bind] at h
    cases hq : rewriteL nd m n l r.2 with
    | ok q =>
      rw [hq, Res.ok_bind] at h
      cases h
      exact ⟨_, _, _, rfl, hq, rfl⟩
    | _ => rw [hq] at h; cases h
  | _ => rw [hr] at h; cases h

theorem nodeType_spec (nd : Bool) {m : TMap} (h : NoArgs m) {d : Nat} {arr : List TData} {x : TData} (hx : Node d m.length arr x) :
    ∃ t, (∀ mNow, nodeType nd m mNow 0 x = .ok t) ∧ Same (Rw d m.length arr x.out) x.tp t := by
  obtain ⟨tp, out⟩ := x
  obtain ⟨l', e, hf⟩ := rewriteL_spec nd h hx.covers fun c hc => plain_comps hx.plain hc
  have hcl := hx.closed
  have hnt := hx.notTabled
  simp only at e hf hcl hnt
  cases tp with
  | undet => exact hcl.elim
  | var n => exact hcl.elim
  | prim n => exact ⟨.prim n, fun _ => rfl, .prim n⟩
  | tabled n args => simp [TT.isTabled] at hnt
  | func a r =>
    simp only [TT.comps] at e hf
    obtain ⟨a', o', l'', e1, e2, rfl⟩ := rewriteL_cons e
    obtain ⟨r', o'', lq, e3, e4, rfl⟩ := rewriteL_cons e2
    cases hf with
    | cons h1 hf =>
      cases hf with
      | cons h2 hf => exact ⟨.func a' r', fun _ => by simp only [nodeType]; rw [e1, Res.ok_bind, e3, Res.ok_bind], .func h1 h2⟩
  | row c =>
    simp only [TT.comps] at e hf
    obtain ⟨c', o', l'', e1, e2, rfl⟩ := rewriteL_cons e
    cases hf with
    | cons h1 hf => exact ⟨.row c', fun _ => by simp only [nodeType]; rw [e1, Res.ok_bind], .row h1⟩
  | tuple l => exact ⟨.tuple l', fun _ => by simp only [nodeType, TT.comps] at e ⊢; rw [e, Res.ok_bind], .tuple hf⟩
  | union l => exact ⟨.union l', fun _ => by simp only [nodeType, TT.comps] at e ⊢; rw [e, Res.ok_bind], .union hf⟩

/-- the entries made by the installation -/
theorem install_spec (nd : Bool) {m : TMap} (h : NoArgs m) {d : Nat} {arr : List TData} (cl : List (List Nat)) (names : List Nat) (rest : List TData) (i : Nat) (mNow : TMap)
    (hr : ∀ x ∈ rest, Node d m.length arr x) :
    ∃ es, installLoop nd m 0 cl names i rest mNow = .ok (mNow ++ es) ∧ es.length = rest.length ∧
      ∀ (k : Nat) (x : TData), rest[k]? = some x → ∃ t, es[k]? = some ⟨names[i + k]?, 0, cl.any fun l => l.contains (i + k), t⟩ ∧ Same (Rw d m.length arr x.out) x.tp t := by
  induction rest generalizing i mNow with
  | nil => exact ⟨[], by simp [installLoop], rfl, by simp⟩
  | cons x rest ih =>
    obtain ⟨t, e, hs⟩ := nodeType_spec nd h (hr x (by simp))
    obtain ⟨es, e', hl, hk⟩ := ih (i + 1) (mNow ++ [⟨names[i]?, 0, cl.any fun l => l.contains i, t⟩]) fun y hy => hr y (by simp [hy])
    refine ⟨⟨names[i]?, 0, cl.any fun l => l.contains i, t⟩ :: es, ?_, by simp [hl], fun k y hy => ?_⟩
    · rw [installLoop, e, Res.ok_bind, e']
      simp
    · cases k with
      | zero =>
        cases hy
        exact ⟨t, rfl, hs⟩
      | succ k =>
        obtain ⟨t', q1, q2⟩ := hk k y (by simpa using hy)
        refine ⟨t', ?_, q2⟩
        rw [show i + (k + 1) = i + 1 + k by omega]
        simpa using q1

/-! ### The table is well formed -/

theorem Same.comps {R : TT → TT → Prop} {t t' : TT} (h : Same R t t') : List.Forall₂ R t.comps t'.comps := by
  cases h with
  | prim n => exact .nil
  | func h1 h2 => exact .cons h1 (.cons h2 .nil)
  | row h1 => exact .cons h1 .nil
  | tuple h => exact h
  | union h => exact h

theorem Same.notTabled {R : TT → TT → Prop} {t t' : TT} (h : Same R t t') : t'.isTabled = false := by
  cases h <;> rfl

theorem Same.tag {R : TT → TT → Prop} {t t' : TT} (h : Same R t t') : t'.tag = t.tag := by
  cases h <;> rfl

theorem plain_of_comps {n : Nat} {t : TT} (ht : t.isTabled = false) (h : ∀ c ∈ t.comps, Plain n c) : Plain n t := by
  cases t with
  | func a r => exact ⟨h a (by simp [TT.comps]), h r (by simp [TT.comps])⟩
  | row c => exact h c (by simp [TT.comps])
  | tuple l => exact plainL_iff.2 h
  | union l => exact plainL_iff.2 h
  | tabled n args => simp [TT.isTabled] at ht
  | _ => trivial

theorem Same.closed {R : TT → TT → Prop} {t t' : TT} (h : Same R t t') (hc : ∀ c ∈ t'.comps, Closed c) : Closed t' := by
  cases h with
  | prim n => trivial
  | func h1 h2 => exact ⟨hc _ (by simp [TT.comps]), hc _ (by simp [TT.comps])⟩
  | row h1 =>
    rename_i c c'
    exact show Closed c' from hc c' (by simp [TT.comps])
  | tuple h => exact closedL_iff.2 hc
  | union h => exact closedL_iff.2 hc

theorem occurs_comps {k : Nat} {t : TT} (ht : t.isTabled = false) : Occurs k t ↔ ∃ c ∈ t.comps, Occurs k c := by
  cases t with
  | func a r => simp [Occurs, TT.comps]
  | row c => simp [Occurs, TT.comps]
  | tuple l => exact occursL_iff
  | union l => exact occursL_iff
  | tabled n args => simp [TT.isTabled] at ht
  | _ => simp [Occurs, TT.comps]

theorem leaf_comps {t : TT} (h : t.composite = false) : t.comps = [] := by
  cases t with
  | tuple l => simpa [TT.comps, TT.composite] using h
  | func a r => simp [TT.composite] at h
  | row c => simp [TT.composite] at h
  | union l => simp [TT.composite] at h
  | _ => rfl

theorem forall₂_right {α β : Type} {R : α → β → Prop} {l : List α} {l' : List β} (h : List.Forall₂ R l l') {b : β} (hb : b ∈ l') : ∃ a ∈ l, R a b := by
  induction h with
  | nil => simp at hb
  | cons h1 _ ih =>
    rcases List.mem_cons.1 hb with rfl | hb
    · exact ⟨_, by simp, h1⟩
    · obtain ⟨a, ha, hr⟩ := ih hb
      exact ⟨a, by simp [ha], hr⟩

theorem plain_mono {n n' : Nat} (hn : n ≤ n') (t : TT) : Plain n t → Plain n' t := by
  induction t using TT.ind with
  | func a r ha hr => exact fun h => ⟨ha h.1, hr h.2⟩
  | row c hc => exact hc
  | tuple l hl => exact fun h => plainL_iff.2 fun t ht => hl t ht (plainL_iff.1 h t ht)
  | union l hl => exact fun h => plainL_iff.2 fun t ht => hl t ht (plainL_iff.1 h t ht)
  | tabled k args _ => exact fun h => ⟨Nat.lt_of_lt_of_le h.1 hn, h.2⟩
  | _ => exact fun _ => trivial

/-- the table after installation, described by `arr` -/
structure Installed (m : TMap) (d : Nat) (arr : List TData) (es : List Binding) (isRec : Nat → Bool) : Prop where
  len : es.length = arr.length
  size : d ≤ arr.length
  nodes : ∀ x ∈ arr, Node d m.length arr x
  entry : ∀ (k : Nat) (x : TData), arr[k]? = some x → ∃ name t, es[k]? = some ⟨name, 0, isRec k, t⟩ ∧ Same (Rw d m.length arr x.out) x.tp t

theorem Installed.wf {m : TMap} (h : WF m) {d : Nat} {arr : List TData} {es : List Binding} {isRec : Nat → Bool} (hi : Installed m d arr es isRec)
    (hcl : ∀ i, Pre.Path (arr.map TData.out) i i → isRec i = true) : WF (m ++ es) := by
  have hnew : ∀ b ∈ es, ∃ (k : Nat) (x : TData) (name : Option Nat) (t : TT), arr[k]? = some x ∧ es[k]? = some b ∧ b = ⟨name, 0, isRec k, t⟩ ∧ Same (Rw d m.length arr x.out) x.tp t ∧ Node d m.length arr x := by
    intro b hb
    obtain ⟨k, hk, rfl⟩ := List.mem_iff_getElem.1 hb
    have hka : k < arr.length := by rw [← hi.len]; exact hk
    obtain ⟨name, t, e, hs⟩ := hi.entry k arr[k] (List.getElem?_eq_getElem hka)
    rw [List.getElem?_eq_getElem hk] at e
    refine ⟨k, arr[k], name, t, List.getElem?_eq_getElem hka, List.getElem?_eq_getElem hk, Option.some.inj e, hs, hi.nodes _ (List.getElem_mem hka)⟩
  have hrw : ∀ {out c c'}, Rw d m.length arr out c c' → Closed c → Plain (m.length + d) c → Closed c' ∧ Plain (m.length + arr.length) c' ∧ c'.comps = [] := by
    intro out c c' hr h1 h2
    cases hr with
    | comp _ _ hj _ _ => exact ⟨trivial, ⟨Nat.add_lt_add_left (List.getElem?_eq_some_iff.1 hj).1 _, rfl⟩, rfl⟩
    | leaf hc _ => exact ⟨h1, plain_mono (Nat.add_le_add_left hi.size _) _ h2, leaf_comps hc⟩
  have hlen : (m ++ es).length = m.length + arr.length := by rw [List.length_append, hi.len]
  -- references
  have hold : ∀ n k, n < m.length → Refers (m ++ es) n k → k < m.length ∧ Refers m n k := by
    rintro n k hn ⟨b, hb, ho⟩
    rw [List.getElem?_append_left hn] at hb
    exact ⟨refers_lt h ⟨b, hb, ho⟩, b, hb, ho⟩
  have href : ∀ i k, Refers (m ++ es) (m.length + i) k → k < m.length ∨ ∃ j, k = m.length + j ∧ Pre.Edge (arr.map TData.out) i j := by
    rintro i k ⟨b, hb, ho⟩
    rw [List.getElem?_append_right (by omega), Nat.add_sub_cancel_left] at hb
    obtain ⟨hk, _⟩ := List.getElem?_eq_some_iff.1 hb
    have hka : i < arr.length := by rw [← hi.len]; exact hk
    obtain ⟨name, t, e, hs⟩ := hi.entry i arr[i] (List.getElem?_eq_getElem hka)
    rw [hb] at e
    cases e
    obtain ⟨c', hc', hoc⟩ := (occurs_comps hs.notTabled).1 ho
    obtain ⟨c, hc, hr⟩ := forall₂_right hs.comps hc'
    have hedge : ∀ j, j ∈ arr[i].out → Pre.Edge (arr.map TData.out) i j := fun j hj => ⟨arr[i].out, by simp [hka], hj⟩
    cases hr with
    | comp _ _ _ _ hj =>
      simp only [Occurs] at hoc
      exact .inr ⟨_, hoc.symm, hedge _ hj⟩
    | leaf hcc hj =>
      cases c' with
      | tabled nr args =>
        simp only [Occurs] at hoc
        subst hoc
        by_cases hn : m.length ≤ nr
        · exact .inr ⟨nr - m.length, by omega, hedge _ (hj _ (by simp [newRef, hn]))⟩
        · exact .inl (by omega)
      | tuple l => rw [occurs_comps rfl, leaf_comps hcc] at hoc; simp at hoc
      | func a r => simp [TT.composite] at hcc
      | row c => simp [TT.composite] at hcc
      | union l => simp [TT.composite] at hcc
      | _ => exact hoc.elim
  have hstay : ∀ n k, TransGen (Refers (m ++ es)) n k → n < m.length → k < m.length ∧ TransGen (Refers m) n k := by
    intro n k ht hn
    induction ht with
    | single ht => exact ⟨(hold _ _ hn ht).1, .single (hold _ _ hn ht).2⟩
    | tail _ ht ih => exact ⟨(hold _ _ ih.1 ht).1, ih.2.tail (hold _ _ ih.1 ht).2⟩
  refine ⟨?_, ?_, ?_⟩
  · intro b hb
    rw [hlen]
    rcases List.mem_append.1 hb with hb | hb
    · obtain ⟨q1, q2, q3, q4⟩ := h.complete b hb
      exact ⟨q1, q2, plain_mono (by omega) _ q3, q4⟩
    · obtain ⟨k, x, name, t, e1, e2, rfl, hs, hx⟩ := hnew b hb
      have hcs : ∀ c' ∈ t.comps, Closed c' ∧ Plain (m.length + arr.length) c' := fun c' hc' => by
        obtain ⟨c, hc, hr⟩ := forall₂_right hs.comps hc'
        have := hrw hr (closed_comps hx.closed hc) (plain_comps hx.plain hc)
        exact ⟨this.1, this.2.1⟩
      exact ⟨rfl, hs.closed fun c hc => (hcs c hc).1, plain_of_comps hs.notTabled fun c hc => (hcs c hc).2, hs.notTabled⟩
  · intro n b hb ht
    by_cases hn : n < m.length
    · rw [List.getElem?_append_left hn] at hb
      exact h.marked n b hb (hstay n n ht hn).2
    · obtain ⟨i, rfl⟩ : ∃ i, n = m.length + i := ⟨n - m.length, by omega⟩
      have hpath : ∀ k, TransGen (Refers (m ++ es)) (m.length + i) k → m.length ≤ k → ∃ j, k = m.length + j ∧ Pre.Path (arr.map TData.out) i j := by
        intro k ht
        induction ht with
        | single ht =>
          intro hk
          rcases href _ _ ht with h' | ⟨j, e, he⟩
          · omega
          · exact ⟨j, e, .single he⟩
        | tail _ ht ih =>
          rename_i b' c' _
          intro hk
          by_cases hb' : m.length ≤ b'
          · obtain ⟨j, rfl, hp⟩ := ih hb'
            rcases href _ _ ht with h' | ⟨j', e, he⟩
            · omega
            · exact ⟨j', e, hp.tail he⟩
          · have := (hold _ _ (by omega) ht).1
            omega
      obtain ⟨j, e, hp⟩ := hpath _ ht (by omega)
      have : i = j := by omega
      subst this
      rw [List.getElem?_append_right (by omega), Nat.add_sub_cancel_left] at hb
      obtain ⟨hk, _⟩ := List.getElem?_eq_some_iff.1 hb
      have hka : i < arr.length := by rw [← hi.len]; exact hk
      obtain ⟨name, t, e, hs⟩ := hi.entry i arr[i] (List.getElem?_eq_getElem hka)
      rw [hb] at e
      cases e
      exact hcl i hp
  · intro b hb hr c' hc'
    rcases List.mem_append.1 hb with hb | hb
    · exact h.flat b hb hr c' hc'
    · obtain ⟨k, x, name, t, e1, e2, rfl, hs, hx⟩ := hnew b hb
      obtain ⟨c, hc, hr⟩ := forall₂_right hs.comps hc'
      exact (hrw hr (closed_comps hx.closed hc) (plain_comps hx.plain hc)).2.2

/-- entries can be made identical to the types they stand for -/
theorem Installed.equiv {m : TMap} {d : Nat} {arr : List TData} {es : List Binding} {isRec : Nat → Bool} (hi : Installed m d arr es isRec) (t : TT) :
    ∀ (j : Nat) (x : TData), arr[j]? = some x → x.tp = t → Equiv (m ++ es) (.tabled (m.length + j) []) t := by
  have step : ∀ t : TT, (∀ c ∈ t.comps, ∀ (j : Nat) (x : TData), arr[j]? = some x → x.tp = c → Equiv (m ++ es) (.tabled (m.length + j) []) c) →
      ∀ (j : Nat) (x : TData), arr[j]? = some x → x.tp = t → Equiv (m ++ es) (.tabled (m.length + j) []) t := by
    intro t ih j x hx ht
    obtain ⟨name, t', e, hs⟩ := hi.entry j x hx
    rw [ht] at hs
    have hb : (m ++ es)[m.length + j]? = some ⟨name, 0, isRec j, t'⟩ := by
      rw [List.getElem?_append_right (by omega), Nat.add_sub_cancel_left, e]
    have hnt : t.isTabled = false := by cases hs <;> rfl
    rw [equiv_tabled hb hnt]
    have hR : ∀ c ∈ t.comps, ∀ c', Rw d m.length arr x.out c c' → Equiv (m ++ es) c' c := fun c hc c' hr => by
      cases hr with
      | comp _ _ h3 h4 _ => exact ih c hc _ _ h3 h4
      | leaf _ _ => exact ⟨_, .refl, .refl⟩
    have hL : ∀ l l', (∀ c ∈ l, ∀ c', Rw d m.length arr x.out c c' → Equiv (m ++ es) c' c) → List.Forall₂ (Rw d m.length arr x.out) l l' → List.Forall₂ (Equiv (m ++ es)) l' l := by
      intro l l' h hf
      induction hf with
      | nil => exact .nil
      | cons h1 _ ih => exact .cons (h _ (by simp) _ h1) (ih fun c hc => h c (by simp [hc]))
    simp only
    cases hs with
    | prim n => exact ⟨_, .refl, .refl⟩
    | func h1 h2 => exact equiv_func.2 ⟨hR _ (by simp [TT.comps]) _ h1, hR _ (by simp [TT.comps]) _ h2⟩
    | row h1 => exact equiv_row.2 (hR _ (by simp [TT.comps]) _ h1)
    | tuple hf => exact equiv_tuple.2 (hL _ _ hR hf)
    | union hf => exact equiv_union.2 (hL _ _ hR hf)
  induction t using TT.ind with
  | func a r ha hr =>
    refine step _ fun c hc => ?_
    simp only [TT.comps, List.mem_cons, List.not_mem_nil, or_false] at hc
    rcases hc with rfl | rfl
    · exact ha
    · exact hr
  | row c hc =>
    refine step _ fun c' hc' => ?_
    simp only [TT.comps, List.mem_cons, List.not_mem_nil, or_false] at hc'
    subst hc'
    exact hc
  | tuple l hl => exact step _ hl
  | union l hl => exact step _ hl
  | _ => exact step _ (by simp [TT.comps])

end Verif.Axis
