import Verif.Axis.TabledDefs
/-
Grouped type definitions where entries are found to be in the table already, and removed.
-/
namespace Verif.Axis
open Verif Relation

theorem dupLoop_spec {nd : Bool} {m : TMap} {fuel cur : Nat} {b : Binding} : ∀ {l : List Binding} {k r : Nat}, dupLoop nd m fuel cur b l k = .ok r →
    r = cur ∨ ∃ j o, l[j]? = some o ∧ r = k + j ∧ o.name = b.name ∧ textEq nd m fuel o.tp b.tp = .ok true
  | [], _, _, h => by cases h; exact .inl rfl
  | o :: l, k, r, h => by
    have key : dupLoop nd m fuel cur b l (k + 1) = .ok r → r = cur ∨ ∃ j o', (o :: l)[j]? = some o' ∧ r = k + j ∧ o'.name = b.name ∧ textEq nd m fuel o'.tp b.tp = .ok true := fun h => by
      rcases dupLoop_spec h with e | ⟨j, o', h1, h2, h3⟩
      · exact .inl e
      · exact .inr ⟨j + 1, o', by simpa using h1, by omega, h3⟩
    rw [dupLoop] at h
    by_cases hc : (!o.recursive && decide (o.name = b.name)) = true
    · rw [if_pos hc] at h
      cases hq : textEq nd m fuel o.tp b.tp with
      | ok v =>
        rw [hq, Res.ok_bind] at h
        cases v with
        | false => exact key h
        | true =>
          cases h
          simp only [Bool.and_eq_true, decide_eq_true_eq] at hc
          exact .inr ⟨0, o, rfl, rfl, hc.2, hq⟩
      | _ => rw [hq] at h; cases h
    · rw [if_neg hc] at h
      exact key h

theorem relocLoop_spec {nd : Bool} {m : TMap} {fuel : Nat} : ∀ {n cur : Nat} {l : List Nat}, relocLoop nd m fuel n cur = .ok l → ∀ k < n, ∃ r, l[k]? = some r ∧ (r = cur + k ∨
    (r < cur + k ∧ ∃ b o, m[cur + k]? = some b ∧ m[r]? = some o ∧ o.name = b.name ∧ textEq nd m fuel o.tp b.tp = .ok true))
  | 0, _, _, _ => by simp
  | n + 1, cur, l, h => by
    rw [relocLoop] at h
    cases h1 : Vec.get m cur with
    | ok b =>
      have hb : m[cur]? = some b := by
        rw [Vec.get] at h1
        cases hg : m[cur]? with
        | none => rw [hg] at h1; cases h1
        | some v => rw [hg] at h1; cases h1; rfl
      rw [h1, Res.ok_bind] at h
      have key : ∀ r, (r = cur ∨ (r < cur ∧ ∃ o, m[r]? = some o ∧ o.name = b.name ∧ textEq nd m fuel o.tp b.tp = .ok true)) →
          (relocLoop nd m fuel n (cur + 1) >>= fun q => (Res.ok (r :: q) : Res (List Nat))) = .ok l → ∀ k < n + 1, ∃ r, l[k]? = some r ∧ (r = cur + k ∨
          (r < cur + k ∧ ∃ b o, m[cur + k]? = some b ∧ m[r]? = some o ∧ o.name = b.name ∧ textEq nd m fuel o.tp b.tp = .ok true)) := fun r hr h => by
        cases h3 : relocLoop nd m fuel n (cur + 1) with
        | ok q =>
          rw [h3, Res.ok_bind] at h
          cases h
          intro k hk
          cases k with
          | zero =>
            refine ⟨r, rfl, hr.imp (fun e => e) fun ⟨h1, o, h2, h4⟩ => ⟨h1, b, o, hb, h2, h4⟩⟩
          | succ k =>
            obtain ⟨r', q1, q2⟩ := relocLoop_spec h3 k (by omega)
            refine ⟨r', by simpa using q1, ?_⟩
            rw [show cur + (k + 1) = cur + 1 + k by omega]
            exact q2
        | _ => rw [h3] at h; cases h
      by_cases hb' : b.recursive = true
      · simp only [if_pos hb'] at h
        exact key cur (.inl rfl) h
      · simp only [if_neg hb'] at h
        cases h2 : dupLoop nd m fuel cur b (m.take cur) 0 with
        | ok r =>
          rw [h2, Res.ok_bind] at h
          refine key r ?_ h
          rcases dupLoop_spec h2 with e | ⟨j, o, h4, h5, h6⟩
          · exact .inl e
          · rw [Nat.zero_add] at h5
            subst h5
            rw [List.getElem?_take] at h4
            by_cases hj : r < cur
            · rw [if_pos hj] at h4
              exact .inr ⟨hj, o, h4, h6⟩
            · rw [if_neg hj] at h4
              cases h4
        | _ => rw [h2] at h; cases h
    | _ => rw [h1] at h; cases h

/-- the removal of duplicates; `T i b` tells that `b` may stand for entry `i` -/
theorem removeLoop_spec {m : TMap} {T : Nat → Binding → Prop} : ∀ (l : List Binding) (i removed : Nat) (rel : List Nat) (kept : List Binding) (rel' : List Nat) (kept' : List Binding),
    removeLoop m.length i removed l rel kept = .ok (rel', kept') → kept.length + removed = i →
    (∀ j < i, ∃ v b, rel[j]? = some v ∧ (m ++ kept)[v]? = some b ∧ T j b) →
    (∀ k < l.length, ∃ r, rel[i + k]? = some r ∧ (r = m.length + (i + k) ∨
      (r < m.length + (i + k) ∧ (r < m.length → ∃ b, m[r]? = some b ∧ T (i + k) b) ∧ (m.length ≤ r → ∀ b, T (r - m.length) b → T (i + k) b)))) →
    (∀ k b, l[k]? = some b → T (i + k) b) →
    (∀ j < i + l.length, ∃ v b, rel'[j]? = some v ∧ (m ++ kept')[v]? = some b ∧ T j b) ∧ rel'.length = rel.length ∧ ∀ b ∈ kept', b ∈ kept ∨ b ∈ l
  | [], i, removed, rel, kept, rel', kept', h, _, hB, _, _ => by
    cases h
    exact ⟨by simpa using hB, rfl, fun b hb => .inl hb⟩
  | b :: l, i, removed, rel, kept, rel', kept', h, hA, hB, hC, hD => by
    obtain ⟨r, hr, hrc⟩ := hC 0 (by simp)
    rw [Nat.add_zero] at hr hrc
    obtain ⟨hlt, _⟩ := List.getElem?_eq_some_iff.1 hr
    have hDs : ∀ k b, l[k]? = some b → T (i + 1 + k) b := fun k b' hb' => by
      have := hD (k + 1) b' (by simpa using hb')
      rwa [show i + 1 + k = i + (k + 1) by omega]
    have hCs : ∀ rel2 : List Nat, (∀ k, i < k → rel2[k]? = rel[k]?) → ∀ k < l.length, ∃ r, rel2[i + 1 + k]? = some r ∧ (r = m.length + (i + 1 + k) ∨
      (r < m.length + (i + 1 + k) ∧ (r < m.length → ∃ b, m[r]? = some b ∧ T (i + 1 + k) b) ∧ (m.length ≤ r → ∀ b, T (r - m.length) b → T (i + 1 + k) b))) := fun rel2 hrel k hk => by
      obtain ⟨r, q⟩ := hC (k + 1) (by simp; omega)
      rw [show i + (k + 1) = i + 1 + k by omega] at q
      exact ⟨r, by rw [hrel _ (by omega)]; exact q.1, q.2⟩
    rw [removeLoop, Vec.get, hr, Res.ok_bind] at h
    by_cases hne : r ≠ m.length + i
    · rw [if_pos hne] at h
      obtain ⟨q1, q2, q3⟩ := hrc.resolve_left hne
      -- the number for entry `i` becomes `v`
      have fin : ∀ rel2 : List Nat, rel2.length = rel.length → (∀ k, k ≠ i → rel2[k]? = rel[k]?) → (∃ v b, rel2[i]? = some v ∧ (m ++ kept)[v]? = some b ∧ T i b) →
          removeLoop m.length (i + 1) (removed + 1) l rel2 kept = .ok (rel', kept') →
          (∀ j < i + (l.length + 1), ∃ v b, rel'[j]? = some v ∧ (m ++ kept')[v]? = some b ∧ T j b) ∧ rel'.length = rel.length ∧ ∀ b' ∈ kept', b' ∈ kept ∨ b' ∈ b :: l := by
        intro rel2 hl2 hrel hi h2
        obtain ⟨w1, w2, w3⟩ := removeLoop_spec (T := T) l (i + 1) (removed + 1) rel2 kept rel' kept' h2 (by omega) (fun j hj => by
          by_cases hji : j = i
          · subst hji; exact hi
          · obtain ⟨v, b, e1, e2⟩ := hB j (by omega)
            exact ⟨v, b, by rw [hrel j hji]; exact e1, e2⟩) (hCs rel2 fun k hk => hrel k (by omega)) hDs
        refine ⟨fun j hj => w1 j (by omega), by rw [w2, hl2], fun b' hb' => (w3 b' hb').imp (fun h => h) fun h => by simp [h]⟩
      simp only [List.length_cons]
      by_cases hor : m.length ≤ r
      · simp only [if_pos hor] at h
        obtain ⟨v, b', e1, e2, e3⟩ := hB (r - m.length) (by omega)
        rw [Vec.get, e1, Res.ok_bind, Vec.put_ok hlt, Res.ok_bind] at h
        exact fin _ (by simp) (fun k hk => by rw [List.getElem?_set_ne (Ne.symm hk)]) ⟨v, b', by rw [List.getElem?_set_self hlt], e2, q3 hor b' e3⟩ h
      · simp only [if_neg hor] at h
        obtain ⟨b', e1, e2⟩ := q2 (by omega)
        exact fin rel rfl (fun _ _ => rfl) ⟨r, b', hr, getElem?_append_some e1, e2⟩ h
    · rw [if_neg hne] at h
      simp only [ne_eq, not_not] at hne
      rw [Vec.put_ok hlt, Res.ok_bind] at h
      obtain ⟨w1, w2, w3⟩ := removeLoop_spec (T := T) l (i + 1) removed (rel.set i (r - removed)) (kept ++ [b]) rel' kept' h (by simp; omega) (fun j hj => by
        by_cases hji : j = i
        · subst hji
          refine ⟨r - removed, b, by rw [List.getElem?_set_self hlt], ?_, by simpa using hD 0 b rfl⟩
          rw [show r - removed = m.length + kept.length by omega, List.getElem?_append_right (by omega), Nat.add_sub_cancel_left, List.getElem?_append_right (le_refl _), Nat.sub_self]
          rfl
        · obtain ⟨v, b', e1, e2, e3⟩ := hB j (by omega)
          exact ⟨v, b', by rw [List.getElem?_set_ne (Ne.symm hji)]; exact e1, by rw [← List.append_assoc]; exact getElem?_append_some e2, e3⟩)
        (hCs _ fun k hk => by rw [List.getElem?_set_ne (by omega)]) hDs
      simp only [List.length_cons]
      refine ⟨fun j hj => w1 j (by omega), by rw [w2, List.length_set], fun b' hb' => ?_⟩
      rcases w3 b' hb' with h | h
      · rcases List.mem_append.1 h with h | h
        · exact .inl h
        · rw [List.mem_singleton.1 h]; exact .inr (by simp)
      · exact .inr (by simp [h])

/-! ### Renumbering -/

theorem renumL_eq (f : Nat → Nat) : ∀ l : List TT, renumL f l = l.map (TT.renum f)
  | [] => rfl
  | t :: l => by rw [renumL, renumL_eq f l, List.map_cons]

theorem renum_leaf {f : Nat → Nat} {t : TT} (h : t.comps = []) (ht : t.isTabled = false) : t.renum f = t := by
  cases t with
  | tuple l => simp only [TT.comps] at h; subst h; rfl
  | union l => simp only [TT.comps] at h; subst h; rfl
  | func a r => simp [TT.comps] at h
  | row c => simp [TT.comps] at h
  | tabled n args => simp [TT.isTabled] at ht
  | _ => rfl

theorem renum_old {f : Nat → Nat} {n : Nat} (hf : ∀ k < n, f k = k) (t : TT) : Plain n t → t.renum f = t := by
  have hL : ∀ l : List TT, (∀ t ∈ l, Plain n t → t.renum f = t) → PlainL n l → renumL f l = l := by
    intro l hl hp
    rw [renumL_eq]
    conv => rhs; rw [← List.map_id l]
    exact List.map_congr_left fun t ht => hl t ht (plainL_iff.1 hp t ht)
  induction t using TT.ind with
  | func a r ha hr => intro h; rw [TT.renum, ha h.1, hr h.2]
  | row c hc => intro h; rw [TT.renum, hc h]
  | tuple l hl => intro h; rw [TT.renum, hL l hl h]
  | union l hl => intro h; rw [TT.renum, hL l hl h]
  | tabled k args _ => intro h; rw [TT.renum, hf k h.1]
  | _ => intro _; rfl

theorem renum_congr {f g : Nat → Nat} {n : Nat} (hf : ∀ k < n, f k = g k) (t : TT) : Plain n t → t.renum f = t.renum g := by
  have hL : ∀ l : List TT, (∀ t ∈ l, Plain n t → t.renum f = t.renum g) → PlainL n l → renumL f l = renumL g l := by
    intro l hl hp
    rw [renumL_eq, renumL_eq]
    exact List.map_congr_left fun t ht => hl t ht (plainL_iff.1 hp t ht)
  induction t using TT.ind with
  | func a r ha hr => intro h; rw [TT.renum, TT.renum, ha h.1, hr h.2]
  | row c hc => intro h; rw [TT.renum, TT.renum, hc h]
  | tuple l hl => intro h; rw [TT.renum, TT.renum, hL l hl h]
  | union l hl => intro h; rw [TT.renum, TT.renum, hL l hl h]
  | tabled k args _ => intro h; rw [TT.renum, TT.renum, hf k h.1]
  | _ => intro _; rfl

/-- `fix` on flat types -/
theorem fix_renum {rel : List Nat} {sz n : Nat} (hrel : n ≤ rel.length) {t : TT} (hp : Plain (sz + n) t) (hc : t.comps = []) : fix rel sz t = .ok (t.renum (groupNr sz rel)) := by
  cases t with
  | tabled nr args =>
    obtain ⟨h1, rfl⟩ := hp
    rw [fix, TT.renum, groupNr]
    by_cases hn : sz ≤ nr
    · have hl : nr - sz < rel.length := by omega
      rw [if_pos hn, if_neg (by omega), Vec.get, List.getElem?_eq_getElem hl, Res.ok_bind]
      rfl
    · rw [if_neg hn, if_pos (by omega)]
      rfl
  | _ => rw [renum_leaf hc rfl, fix]; simp

theorem fixL_renum {rel : List Nat} {sz n : Nat} (hrel : n ≤ rel.length) : ∀ {l : List TT}, PlainL (sz + n) l → (∀ c ∈ l, c.comps = []) → fixL rel sz l = .ok (renumL (groupNr sz rel) l)
  | [], _, _ => rfl
  | t :: l, hp, hc => by
    rw [fixL, fix_renum hrel hp.1 (hc t (by simp)), Res.ok_bind, fixL_renum hrel hp.2 fun c h => hc c (by simp [h]), Res.ok_bind]
    rfl

theorem fixTop_renum (nd : Bool) {rel : List Nat} {sz n : Nat} (hrel : n ≤ rel.length) {t : TT} (hp : Plain (sz + n) t) (ht : t.isTabled = false) (hc : ∀ c ∈ t.comps, c.comps = []) :
    fixTop nd rel sz t = .ok (t.renum (groupNr sz rel)) := by
  cases t with
  | row c => simp only [fixTop]; rw [fix_renum hrel (t := c) hp (hc c (by simp [TT.comps])), Res.ok_bind]; rfl
  | func a r =>
    simp only [fixTop]
    rw [fix_renum hrel hp.1 (hc a (by simp [TT.comps])), Res.ok_bind, fix_renum hrel hp.2 (hc r (by simp [TT.comps])), Res.ok_bind]
    rfl
  | tuple l => simp only [fixTop]; rw [fixL_renum hrel hp hc, Res.ok_bind]; rfl
  | union l => simp only [fixTop]; rw [fixL_renum hrel hp hc, Res.ok_bind]; rfl
  | tabled nr args => simp [TT.isTabled] at ht
  | _ => rfl

theorem fixAll_renum (nd : Bool) {rel : List Nat} {sz n : Nat} (hrel : n ≤ rel.length) : ∀ {l : List Binding},
    (∀ b ∈ l, Plain (sz + n) b.tp ∧ b.tp.isTabled = false ∧ ∀ c ∈ b.tp.comps, c.comps = []) →
    fixAll nd rel sz l = .ok (l.map fun b => { b with tp := b.tp.renum (groupNr sz rel) })
  | [], _ => rfl
  | b :: l, h => by
    rw [fixAll, fixTop_renum nd hrel (h b (by simp)).1 (h b (by simp)).2.1 (h b (by simp)).2.2, Res.ok_bind, fixAll_renum nd hrel (fun b hb => h b (by simp [hb])), Res.ok_bind]
    rfl

/-! ### Complete expansions -/

/-- types that can be made identical have the same head, with components that can be made identical -/
theorem equiv_same {m : TMap} {n : Nat} {x y : TT} (hx : x.isTabled = false) (hy : y.isTabled = false) (cx : Closed x) (cy : Closed y) (px : Plain n x) (py : Plain n y) (h : Equiv m x y) :
    Same (fun a b => Equiv m a b ∧ Closed a ∧ Closed b ∧ Plain n a ∧ Plain n b) x y := by
  have ht := equiv_tag hx hy h
  have hL : ∀ l l', List.Forall₂ (Equiv m) l l' → ClosedL l → ClosedL l' → PlainL n l → PlainL n l' →
      List.Forall₂ (fun a b => Equiv m a b ∧ Closed a ∧ Closed b ∧ Plain n a ∧ Plain n b) l l' := by
    intro l l' hf
    induction hf with
    | nil => intro _ _ _ _; exact .nil
    | cons h1 _ ih => intro a b c d; exact .cons ⟨h1, a.1, b.1, c.1, d.1⟩ (ih a.2 b.2 c.2 d.2)
  cases x with
  | undet => exact cx.elim
  | var a => exact cx.elim
  | tabled k args => simp [TT.isTabled] at hx
  | prim a =>
    cases y with
    | prim b =>
      have := equiv_leaf (by rintro z ⟨⟩) (by rintro z ⟨⟩) h
      cases this
      exact .prim a
    | _ => simp [TT.tag] at ht
  | func a r =>
    cases y with
    | func a' r' =>
      obtain ⟨h1, h2⟩ := equiv_func.1 h
      exact .func ⟨h1, cx.1, cy.1, px.1, py.1⟩ ⟨h2, cx.2, cy.2, px.2, py.2⟩
    | _ => simp [TT.tag] at ht
  | row c =>
    cases y with
    | row c' => exact .row ⟨equiv_row.1 h, cx, cy, px, py⟩
    | _ => simp [TT.tag] at ht
  | tuple l =>
    cases y with
    | tuple l' => exact .tuple (hL _ _ (equiv_tuple.1 h) cx cy px py)
    | _ => simp [TT.tag] at ht
  | union l =>
    cases y with
    | union l' => exact .union (hL _ _ (equiv_union.1 h) cx cy px py)
    | _ => simp [TT.tag] at ht

theorem same_renum {R Q : TT → TT → Prop} {f : Nat → Nat} (h : ∀ a b, R a b → Q (a.renum f) (b.renum f)) {x y : TT} (hs : Same R x y) : Same Q (x.renum f) (y.renum f) := by
  have hL : ∀ l l', List.Forall₂ R l l' → List.Forall₂ Q (renumL f l) (renumL f l') := by
    intro l l' hf
    induction hf with
    | nil => exact .nil
    | cons h1 _ ih => exact .cons (h _ _ h1) ih
  cases hs with
  | prim n => exact .prim n
  | func h1 h2 => exact .func (h _ _ h1) (h _ _ h2)
  | row h1 => exact .row (h _ _ h1)
  | tuple hf => exact .tuple (hL _ _ hf)
  | union hf => exact .union (hL _ _ hf)

theorem merge_spec (nd : Bool) (fuel : Nat) {m : TMap} (h : WF m) {defs : List (Nat × TT)} (hg : GroupOk m defs) {nrs : List Nat} {m' : TMap}
    (hr : addTypedefs nd fuel m defs 0 = .ok (nrs, m')) :
    (∃ es, m' = m ++ es) ∧ (∀ b ∈ m', b.arity = 0 ∧ b.tp.isTabled = false) ∧ nrs.length = defs.length ∧
      ∀ (i : Nat) (d : Nat × TT), defs[i]? = some d → ∃ n b, nrs[i]? = some n ∧ m'[n]? = some b ∧ b.name = some d.1 ∧ SameTree m' (.tabled n []) (d.2.renum (groupNr m.length nrs)) := by
  obtain ⟨arr, p, q, cl, es, e1, e2, e3, e4, e5, hl, hl', hwf, hflat, heq⟩ := install_all nd h hg
  rw [addTypedefs, e1, Res.ok_bind, e2, Res.ok_bind, e3, Res.ok_bind, e4, Res.ok_bind, e5, Res.ok_bind] at hr
  cases h1 : relocLoop nd (m ++ es) fuel arr.length m.length with
  | ok rel =>
    rw [h1, Res.ok_bind, List.drop_left] at hr
    cases h2 : removeLoop m.length 0 0 es rel [] with
    | ok r =>
      rw [h2, Res.ok_bind] at hr
      have hrl := relocLoop_length h1
      have hel : es.length = arr.length := by rw [hl', hl]
      have hplain : ∀ b ∈ es, Plain (m.length + es.length) b.tp ∧ b.tp.isTabled = false ∧ ∀ c ∈ b.tp.comps, c.comps = [] := fun b hb => by
        obtain ⟨_, _, w3, w4⟩ := hwf.complete b (by simp [hb])
        rw [List.length_append] at w3
        exact ⟨w3, w4, hflat b hb⟩
      have hget : ∀ j, j < es.length → ∃ b, (m ++ es)[m.length + j]? = some b := fun j hj => ⟨es[j], by
        rw [List.getElem?_append_right (by omega), Nat.add_sub_cancel_left, List.getElem?_eq_getElem hj]⟩
      let T : Nat → Binding → Prop := fun j b => ∃ k, (m ++ es)[k]? = some b ∧ Equiv (m ++ es) (.tabled (m.length + j) []) (.tabled k []) ∧
        ∀ b', (m ++ es)[m.length + j]? = some b' → b'.name = b.name
      obtain ⟨w1, w2, w3⟩ := removeLoop_spec (T := T) es 0 0 rel [] r.1 r.2 h2 rfl (by simp) (fun k hk => by
        obtain ⟨r', q1, q2⟩ := relocLoop_spec h1 k (by omega)
        rw [Nat.zero_add]
        refine ⟨r', q1, q2.imp (fun e => e) fun ⟨hlt, b, o, hb, ho, hn, ht⟩ => ?_⟩
        have hb3 := (hwf.complete b (List.mem_of_getElem? hb)).2.2
        have ho3 := (hwf.complete o (List.mem_of_getElem? ho)).2.2
        have hE : Equiv (m ++ es) (.tabled (m.length + k) []) (.tabled r' []) := by
          rw [equiv_tabled2 hwf hb ho (by omega)]
          exact equiv_symm (textEq_sound nd hwf fuel _ _ ho3.1 hb3.1 ht)
        refine ⟨hlt, fun hlt' => ⟨o, ?_, r', ho, hE, fun b' hb' => ?_⟩, fun hge b' => ?_⟩
        · rwa [List.getElem?_append_left hlt'] at ho
        · rw [hb] at hb'; cases hb'; exact hn.symm
        · rintro ⟨k', hk', hE', hn'⟩
          rw [show m.length + (r' - m.length) = r' by omega] at hE' hn'
          refine ⟨k', hk', equiv_trans hE hE', fun b'' hb'' => ?_⟩
          rw [hb] at hb''
          cases hb''
          rw [← hn, hn' o ho]) (fun k b hb => by
        rw [Nat.zero_add]
        have hb' : (m ++ es)[m.length + k]? = some b := by rw [List.getElem?_append_right (by omega), Nat.add_sub_cancel_left, hb]
        refine ⟨m.length + k, hb', ⟨_, .refl, .refl⟩, fun b' hb'' => ?_⟩
        rw [hb'] at hb''
        cases hb''
        rfl)
      have hrl1 : r.1.length = es.length := by rw [w2, hrl, hel]
      have hkept : ∀ b ∈ r.2, b ∈ es := fun b hb => (w3 b hb).resolve_left (by simp)
      rw [fixAll_renum nd (le_of_eq hrl1.symm) fun b hb => hplain b (hkept b hb), Res.ok_bind] at hr
      cases hr
      have hdl : defs.length ≤ es.length := by rw [hl', groupSize_eq]; omega
      -- the types of the installed table are represented in the final one
      have hrep : ∀ n, n < (m ++ es).length → ∃ (b : Binding) (k : Nat), (m ++ es)[k]? = some b ∧ Equiv (m ++ es) (.tabled n []) (.tabled k []) ∧ (∀ b', (m ++ es)[n]? = some b' → b'.name = b.name) ∧
          (m ++ r.2.map fun b : Binding => { b with tp := b.tp.renum (groupNr m.length r.1) })[groupNr m.length r.1 n]? = some { b with tp := b.tp.renum (groupNr m.length r.1) } := by
        intro n hn
        have hold : ∀ (v : Nat) (b : Binding), m[v]? = some b → (m ++ r.2.map fun b : Binding => { b with tp := b.tp.renum (groupNr m.length r.1) })[v]? = some { b with tp := b.tp.renum (groupNr m.length r.1) } := by
          intro v b hb
          rw [getElem?_append_some hb, renum_old (n := m.length) (fun k hk => by rw [groupNr, if_pos hk]) _ (h.complete b (List.mem_of_getElem? hb)).2.2.1]
        by_cases hnm : n < m.length
        · obtain ⟨b, hb⟩ : ∃ b, m[n]? = some b := ⟨_, List.getElem?_eq_getElem hnm⟩
          have hb' : (m ++ es)[n]? = some b := getElem?_append_some hb
          refine ⟨b, n, hb', ⟨_, .refl, .refl⟩, fun b' hb'' => ?_, ?_⟩
          · rw [hb'] at hb''; cases hb''; rfl
          · rw [show groupNr m.length r.1 n = n by rw [groupNr, if_pos hnm]]
            exact hold n b hb
        · rw [List.length_append] at hn
          obtain ⟨v, b, hv, hvb, k, hk, hE, hnam⟩ := w1 (n - m.length) (by omega)
          rw [show m.length + (n - m.length) = n by omega] at hE hnam
          refine ⟨b, k, hk, hE, hnam, ?_⟩
          rw [show groupNr m.length r.1 n = v by rw [groupNr, if_neg hnm, hv]; rfl]
          by_cases hvm : v < m.length
          · rw [List.getElem?_append_left hvm] at hvb
            exact hold v b hvb
          · rw [List.getElem?_append_right (by omega)] at hvb ⊢
            rw [List.getElem?_map, hvb]
            rfl
      have hhead : ∀ x, Closed x → Plain (m ++ es).length x → ∃ x0, (x.renum (groupNr m.length r.1)).head (m ++ r.2.map fun b : Binding => { b with tp := b.tp.renum (groupNr m.length r.1) }) =
          x0.renum (groupNr m.length r.1) ∧ x0.isTabled = false ∧ Closed x0 ∧ Plain (m ++ es).length x0 ∧ Equiv (m ++ es) x x0 := by
        intro x cx px
        cases x with
        | tabled n args =>
          obtain ⟨hn, rfl⟩ := px
          obtain ⟨b, k, hk, hE, _, hv⟩ := hrep n hn
          obtain ⟨_, c1, c2, c3⟩ := hwf.complete b (List.mem_of_getElem? hk)
          refine ⟨b.tp, ?_, c3, c1, c2, equiv_trans hE ⟨b.tp, .single (.here hk), .refl⟩⟩
          rw [TT.renum, TT.head, hv]
          rfl
        | _ => exact ⟨_, rfl, rfl, cx, px, ⟨_, .refl, .refl⟩⟩
      have htree : ∀ x y, Equiv (m ++ es) x y → Closed x → Closed y → Plain (m ++ es).length x → Plain (m ++ es).length y →
          SameTree (m ++ r.2.map fun b : Binding => { b with tp := b.tp.renum (groupNr m.length r.1) }) (x.renum (groupNr m.length r.1)) (y.renum (groupNr m.length r.1)) := by
        intro x y hE cx cy px py
        refine ⟨fun z w => ∃ x y, (Equiv (m ++ es) x y ∧ Closed x ∧ Closed y ∧ Plain (m ++ es).length x ∧ Plain (m ++ es).length y) ∧ z = x.renum (groupNr m.length r.1) ∧ w = y.renum (groupNr m.length r.1), ?_,
          ⟨x, y, ⟨hE, cx, cy, px, py⟩, rfl, rfl⟩⟩
        rintro z w ⟨x, y, ⟨hE, cx, cy, px, py⟩, rfl, rfl⟩
        obtain ⟨x0, ex, tx, cx0, px0, hx0⟩ := hhead x cx px
        obtain ⟨y0, ey, ty, cy0, py0, hy0⟩ := hhead y cy py
        rw [ex, ey]
        exact same_renum (fun a b hab => ⟨a, b, hab, rfl, rfl⟩) (equiv_same tx ty cx0 cy0 px0 py0 (equiv_trans (equiv_symm hx0) (equiv_trans hE hy0)))
      have hplen : (m ++ es).length = m.length + es.length := List.length_append
      refine ⟨⟨_, rfl⟩, fun b hb => ?_, by simp [hrl1, hdl], fun i d hd => ?_⟩
      · rcases List.mem_append.1 hb with hb | hb
        · exact ⟨(h.complete b hb).1, (h.complete b hb).2.2.2⟩
        · obtain ⟨b0, hb0, rfl⟩ := List.mem_map.1 hb
          have := hwf.complete b0 (by simp [hkept b0 hb0])
          refine ⟨this.1, ?_⟩
          have key : ∀ t : TT, t.isTabled = false → (t.renum (groupNr m.length r.1)).isTabled = false := fun t ht => by cases t <;> first | rfl | simp [TT.isTabled] at ht
          exact key _ this.2.2.2
      · have hid : i < defs.length := (List.getElem?_eq_some_iff.1 hd).1
        obtain ⟨⟨b0, hb0, hnm0⟩, hE0⟩ := heq i d hd
        obtain ⟨b, k, hk, hE, hnam, hv⟩ := hrep (m.length + i) (by rw [hplen]; omega)
        have hgi : r.1[i]? = some (groupNr m.length r.1 (m.length + i)) := by
          rw [groupNr, if_neg (by omega), Nat.add_sub_cancel_left, List.getElem?_eq_getElem (by omega : i < r.1.length)]
          rfl
        obtain ⟨g1, g2, g3⟩ := hg.rhs d (List.mem_of_getElem? hd)
        refine ⟨groupNr m.length r.1 (m.length + i), _, by rw [List.getElem?_take, if_pos hid, hgi], hv, ?_, ?_⟩
        · rw [← hnam b0 (by rw [List.getElem?_append_right (by omega), Nat.add_sub_cancel_left, hb0])]
          exact hnm0
        · have hcg : d.2.renum (groupNr m.length (r.1.take defs.length)) = d.2.renum (groupNr m.length r.1) := by
            refine renum_congr (n := m.length + defs.length) (fun j hj => ?_) _ g2
            rw [groupNr, groupNr]
            by_cases hjm : j < m.length
            · rw [if_pos hjm, if_pos hjm]
            · rw [if_neg hjm, if_neg hjm, List.getElem?_take, if_pos (by omega)]
          rw [hcg]
          have := htree (.tabled (m.length + i) []) d.2 hE0 trivial g1 ⟨by rw [hplen]; omega, rfl⟩ (plain_mono (by rw [hplen]; omega) _ g2)
          rwa [TT.renum] at this
    | _ => rw [h2] at hr; cases hr
  | _ => rw [h1] at hr; cases hr

end Verif.Axis
