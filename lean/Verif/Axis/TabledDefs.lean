import Verif.Axis.TabledGroup
/-
Type definitions keep the table well formed.
-/
namespace Verif.Axis
open Verif Relation

theorem WF.noArgs {m : TMap} (h : WF m) : NoArgs m := fun b hb => (h.complete b hb).1

theorem covers_lt {d sz : Nat} {arr : List TData} {l : List TT} {o : List Nat} (h : Covers d sz arr l o) (hp : ∀ c ∈ l, Plain (sz + d) c) (hd : d ≤ arr.length) : ∀ j ∈ o, j < arr.length := by
  induction h with
  | nil => simp
  | comp _ _ h3 _ _ ih =>
    intro j hj
    rcases List.mem_cons.1 hj with rfl | hj
    · exact (List.getElem?_eq_some_iff.1 h3).1
    · exact ih (fun c hc => hp c (by simp [hc])) j hj
  | leaf _ _ ih =>
    rename_i t l o _ _
    intro j hj
    rcases List.mem_append.1 hj with hj | hj
    · cases t with
      | tabled nr args =>
        have hn := (hp (.tabled nr args) (by simp)).1
        by_cases hq : sz ≤ nr
        · simp only [newRef, if_pos hq, List.mem_singleton] at hj
          omega
        · simp [newRef, hq] at hj
      | _ => simp [newRef] at hj
    · exact ih (fun c hc => hp c (by simp [hc])) j hj

theorem groupSize_eq (defs : List (Nat × TT)) : groupSize defs = defs.length + (defs.map fun q => max 1 q.2.parts - 1).sum := by
  unfold groupSize
  induction defs with
  | nil => rfl
  | cons q l ih => simp only [List.map_cons, List.sum_cons, List.length_cons, ih]; omega

/-- all steps of a grouped definition until the search for duplicates -/
theorem install_all (nd : Bool) {m : TMap} (h : WF m) {defs : List (Nat × TT)} (hg : GroupOk m defs) :
    ∃ arr p q cl es, fillLoop m 0 defs (List.replicate defs.length ⟨.undet, []⟩) = .ok arr ∧ Pre.ofLists nd (arr.map TData.out) = .ok p ∧ Pre.closure nd p = .ok q ∧ Pre.cliques nd q = .ok cl ∧
      installLoop nd m 0 cl (defs.map Prod.fst) 0 arr m = .ok (m ++ es) ∧ arr.length = groupSize defs ∧ es.length = groupSize defs ∧ WF (m ++ es) ∧ (∀ b ∈ es, ∀ c ∈ b.tp.comps, c.comps = []) ∧
      ∀ (i : Nat) (d : Nat × TT), defs[i]? = some d → (∃ b, es[i]? = some b ∧ b.name = some d.1) ∧ Equiv (m ++ es) (.tabled (m.length + i) []) d.2 := by
  obtain ⟨arr, e1, hf⟩ := fill_spec h.noArgs defs.length defs [] (List.replicate defs.length ⟨.undet, []⟩) (by simp) hg.rhs
    ⟨by simp, (fun j x hj e => by rw [List.getElem?_eq_none (by simpa using hj)] at e; cases e), by simp⟩
  rw [List.nil_append] at hf
  have hlen : arr.length = groupSize defs := by rw [hf.len, groupSize_eq]
  have hd : defs.length ≤ arr.length := by rw [hf.len]; omega
  have hnode : ∀ x ∈ arr, Node defs.length m.length arr x := by
    intro x hx
    obtain ⟨j, hj, rfl⟩ := List.mem_iff_getElem.1 hx
    by_cases hjd : j < defs.length
    · obtain ⟨y, e, _, hy⟩ := hf.done j defs[j] (List.getElem?_eq_getElem hjd)
      rw [List.getElem?_eq_getElem hj] at e
      cases e
      exact hy
    · exact hf.nodes j _ (by omega) (List.getElem?_eq_getElem hj)
  have hprop : Pre.Proper (arr.map TData.out) := by
    refine ⟨by rw [List.length_map, hlen]; have := hg.size; omega, ?_⟩
    rintro x y ⟨l, hl, hy⟩
    rw [List.getElem?_map, Option.map_eq_some_iff] at hl
    obtain ⟨z, hz, rfl⟩ := hl
    have hn := hnode z (List.mem_of_getElem? hz)
    rw [List.length_map]
    exact covers_lt hn.covers (fun c hc => plain_comps hn.plain hc) hd y hy
  obtain ⟨p, q, cl, e2, e3, e4, _, hcl, _⟩ := Pre.C31_cliques nd _ hprop
  obtain ⟨es, e5, hl, hk⟩ := install_spec nd h.noArgs cl (defs.map Prod.fst) arr 0 m hnode
  have hi : Installed m defs.length arr es (fun k => cl.any fun l => l.contains k) := ⟨hl, hd, hnode, fun k x hx => by
    obtain ⟨t, q1, q2⟩ := hk k x hx
    rw [Nat.zero_add] at q1
    exact ⟨_, t, q1, q2⟩⟩
  refine ⟨arr, p, q, cl, es, e1, e2, e3, e4, e5, hlen, by rw [hl, hlen], hi.wf h fun i hp => ?_, fun b hb c' hc' => ?_, fun i dd hdd => ?_⟩
  · obtain ⟨l, hl, hil⟩ := hcl i hp
    exact List.any_eq_true.2 ⟨l, hl, List.contains_iff_mem.2 hil⟩
  · obtain ⟨k, hk', rfl⟩ := List.mem_iff_getElem.1 hb
    have hka : k < arr.length := by rw [← hl]; exact hk'
    obtain ⟨t, q1, q2⟩ := hk k arr[k] (List.getElem?_eq_getElem hka)
    rw [List.getElem?_eq_getElem hk'] at q1
    rw [Option.some.inj q1] at hc'
    obtain ⟨c, _, hr⟩ := forall₂_right q2.comps hc'
    cases hr with
    | comp _ _ _ _ _ => rfl
    | leaf hc _ => exact leaf_comps hc
  · obtain ⟨x, hx, ht, _⟩ := hf.done i dd hdd
    obtain ⟨t, q1, q2⟩ := hk i x hx
    refine ⟨⟨_, q1, ?_⟩, hi.equiv dd.2 i x hx ht⟩
    simp [hdd]

/-! ### Nothing is changed when there are no duplicates -/

theorem removeLoop_all {old : Nat} : ∀ (l : List Binding) (i removed : Nat) (rel : List Nat) (kept : List Binding) (rel' : List Nat) (kept' : List Binding),
    removeLoop old i removed l rel kept = .ok (rel', kept') → kept'.length ≤ kept.length + l.length ∧
      (kept'.length = kept.length + l.length → removed = 0 → kept' = kept ++ l ∧ rel' = rel ∧ ∀ k < l.length, rel[i + k]? = some (old + (i + k)))
  | [], i, removed, rel, kept, rel', kept', h => by
    cases h
    simp
  | b :: l, i, removed, rel, kept, rel', kept', h => by
    rw [removeLoop] at h
    cases hr : Vec.get rel i with
    | ok r =>
      rw [hr, Res.ok_bind] at h
      by_cases hne : r ≠ old + i
      · rw [if_pos hne] at h
        have key : ∀ rel2, removeLoop old (i + 1) (removed + 1) l rel2 kept = .ok (rel', kept') → kept'.length ≤ kept.length + l.length := fun rel2 h2 => (removeLoop_all l _ _ _ _ _ _ h2).1
        have : kept'.length ≤ kept.length + l.length := by
          by_cases hor : old ≤ r
          · simp only [if_pos hor] at h
            cases hq : Vec.get rel (r - old) with
            | ok v =>
              rw [hq, Res.ok_bind] at h
              cases hw : Vec.put rel i v with
              | ok rel2 => rw [hw, Res.ok_bind] at h; exact key rel2 h
              | _ => rw [hw] at h; cases h
            | _ => rw [hq] at h; cases h
          · simp only [if_neg hor] at h
            exact key rel h
        simp only [List.length_cons]
        exact ⟨by omega, fun e => by omega⟩
      · rw [if_neg hne] at h
        have hri : rel[i]? = some r := by
          rw [Vec.get] at hr
          cases hg : rel[i]? with
          | none => rw [hg] at hr; cases hr
          | some v => rw [hg] at hr; cases hr; rfl
        obtain ⟨hlt, hri'⟩ := List.getElem?_eq_some_iff.1 hri
        rw [Vec.put_ok hlt, Res.ok_bind] at h
        have q := removeLoop_all l _ _ _ _ _ _ h
        simp only [List.length_append, List.length_nil, List.length_cons] at q ⊢
        refine ⟨by omega, fun e h0 => ?_⟩
        subst h0
        obtain ⟨q1, q2, q3⟩ := q.2 (by omega) rfl
        have hset : rel.set i (r - 0) = rel := by
          rw [Nat.sub_zero, ← hri', List.set_getElem_self]
        rw [hset] at q2 q3
        refine ⟨by rw [q1]; simp, q2, fun k hk => ?_⟩
        cases k with
        | zero => rw [Nat.add_zero, hri]; simp only [ne_eq, not_not] at hne; rw [hne]
        | succ k =>
          have := q3 k (by omega)
          rw [show i + (k + 1) = i + 1 + k by omega]
          exact this
    | _ => rw [hr] at h; cases h

theorem fix_id {rel : List Nat} {sz n : Nat} (hrel : ∀ k < n, rel[k]? = some (sz + k)) {t : TT} (hp : Plain (sz + n) t) : fix rel sz t = .ok t := by
  cases t with
  | tabled nr args =>
    obtain ⟨h1, rfl⟩ := hp
    rw [fix]
    by_cases hn : sz ≤ nr
    · rw [if_pos hn, Vec.get, hrel (nr - sz) (by omega), Res.ok_bind, Nat.add_sub_cancel' hn]
    · rw [if_neg hn]
      rfl
  | _ => rw [fix]; simp

theorem fixL_id {rel : List Nat} {sz n : Nat} (hrel : ∀ k < n, rel[k]? = some (sz + k)) : ∀ {l : List TT}, PlainL (sz + n) l → fixL rel sz l = .ok l
  | [], _ => rfl
  | t :: l, hp => by rw [fixL, fix_id hrel hp.1, Res.ok_bind, fixL_id hrel hp.2, Res.ok_bind]

theorem fixTop_id (nd : Bool) {rel : List Nat} {sz n : Nat} (hrel : ∀ k < n, rel[k]? = some (sz + k)) {t : TT} (hp : Plain (sz + n) t) (ht : t.isTabled = false) : fixTop nd rel sz t = .ok t := by
  cases t with
  | row c => simp only [fixTop]; rw [fix_id hrel (t := c) hp, Res.ok_bind]
  | func a r => simp only [fixTop]; rw [fix_id hrel hp.1, Res.ok_bind, fix_id hrel hp.2, Res.ok_bind]
  | tuple l => simp only [fixTop]; rw [fixL_id hrel hp, Res.ok_bind]
  | union l => simp only [fixTop]; rw [fixL_id hrel hp, Res.ok_bind]
  | tabled nr args => simp [TT.isTabled] at ht
  | _ => rfl

theorem fixAll_id (nd : Bool) {rel : List Nat} {sz n : Nat} (hrel : ∀ k < n, rel[k]? = some (sz + k)) : ∀ {l : List Binding}, (∀ b ∈ l, Plain (sz + n) b.tp ∧ b.tp.isTabled = false) → fixAll nd rel sz l = .ok l
  | [], _ => rfl
  | b :: l, h => by
    rw [fixAll, fixTop_id nd hrel (h b (by simp)).1 (h b (by simp)).2, Res.ok_bind, fixAll_id nd hrel (fun b hb => h b (by simp [hb])), Res.ok_bind]

theorem fixAll_length (nd : Bool) {rel : List Nat} {sz : Nat} : ∀ {l l' : List Binding}, fixAll nd rel sz l = .ok l' → l'.length = l.length
  | [], _, h => by cases h; rfl
  | b :: l, l', h => by
    rw [fixAll] at h
    cases h1 : fixTop nd rel sz b.tp with
    | ok t =>
      rw [h1, Res.ok_bind] at h
      cases h2 : fixAll nd rel sz l with
      | ok q =>
        rw [h2, Res.ok_bind] at h
        cases h
        simp [fixAll_length nd h2]
      | _ => rw [h2] at h; cases h
    | _ => rw [h1] at h; cases h

theorem relocLoop_length {nd : Bool} {m : TMap} {fuel : Nat} : ∀ {n cur : Nat} {l : List Nat}, relocLoop nd m fuel n cur = .ok l → l.length = n
  | 0, _, _, h => by cases h; rfl
  | n + 1, cur, l, h => by
    rw [relocLoop] at h
    cases h1 : Vec.get m cur with
    | ok b =>
      rw [h1, Res.ok_bind] at h
      have key : ∀ r, (relocLoop nd m fuel n (cur + 1) >>= fun q => (Res.ok (r :: q) : Res (List Nat))) = .ok l → l.length = n + 1 := fun r h => by
        cases h3 : relocLoop nd m fuel n (cur + 1) with
        | ok q =>
          rw [h3, Res.ok_bind] at h
          cases h
          simp [relocLoop_length h3]
        | _ => rw [h3] at h; cases h
      by_cases hb : b.recursive = true
      · simp only [if_pos hb] at h
        exact key cur h
      · simp only [if_neg hb] at h
        cases h2 : dupLoop nd m fuel cur b (m.take cur) 0 with
        | ok r =>
          rw [h2, Res.ok_bind] at h
          exact key r h
        | _ => rw [h2] at h; cases h
    | _ => rw [h1] at h; cases h

theorem group_spec (nd : Bool) (fuel : Nat) {m : TMap} (h : WF m) {defs : List (Nat × TT)} (hg : GroupOk m defs) {nrs : List Nat} {m' : TMap}
    (hr : addTypedefs nd fuel m defs 0 = .ok (nrs, m')) :
    m'.length ≤ m.length + groupSize defs ∧ (m'.length = m.length + groupSize defs → WF m' ∧ (∃ es, m' = m ++ es) ∧ nrs = (List.range defs.length).map (m.length + ·) ∧
      ∀ (i : Nat) (d : Nat × TT), defs[i]? = some d → (∃ b, m'[m.length + i]? = some b ∧ b.name = some d.1) ∧ Equiv m' (.tabled (m.length + i) []) d.2) := by
  obtain ⟨arr, p, q, cl, es, e1, e2, e3, e4, e5, hl, hl', hwf, _, heq⟩ := install_all nd h hg
  rw [addTypedefs, e1, Res.ok_bind, e2, Res.ok_bind, e3, Res.ok_bind, e4, Res.ok_bind, e5, Res.ok_bind] at hr
  cases h1 : relocLoop nd (m ++ es) fuel arr.length m.length with
  | ok rel =>
    rw [h1, Res.ok_bind, List.drop_left] at hr
    cases h2 : removeLoop m.length 0 0 es rel [] with
    | ok r =>
      rw [h2, Res.ok_bind] at hr
      cases h3 : fixAll nd r.1 m.length r.2 with
      | ok new =>
        rw [h3, Res.ok_bind] at hr
        cases hr
        have q := removeLoop_all es 0 0 rel [] r.1 r.2 h2
        have hn := fixAll_length nd h3
        simp only [List.length_nil, Nat.zero_add] at q
        rw [List.length_append, hn]
        refine ⟨by omega, fun hlen => ?_⟩
        obtain ⟨q1, q2, q3⟩ := q.2 (by omega) trivial
        simp only [List.nil_append] at q1
        have hids : fixAll nd r.1 m.length r.2 = .ok es := by
          rw [q1]
          refine fixAll_id nd (n := es.length) (fun k hk => by rw [q2]; exact q3 k hk) fun b hb => ?_
          obtain ⟨_, _, w3, w4⟩ := hwf.complete b (by simp [hb])
          rw [List.length_append] at w3
          exact ⟨w3, w4⟩
        rw [h3] at hids
        cases hids
        refine ⟨hwf, ⟨_, rfl⟩, ?_, fun i d hd => ?_⟩
        · have hrl := relocLoop_length h1
          have hdl : defs.length ≤ es.length := by rw [hl', groupSize_eq]; omega
          rw [q2]
          apply List.ext_getElem?
          intro k
          rw [List.getElem?_take, List.getElem?_map]
          by_cases hk : k < defs.length
          · rw [if_pos hk, q3 k (by omega), List.getElem?_range hk]
            rfl
          · rw [if_neg hk, List.getElem?_eq_none (by simp; omega)]
            rfl
        · obtain ⟨⟨b, hb, hnm⟩, he⟩ := heq i d hd
          refine ⟨⟨b, ?_, hnm⟩, he⟩
          rw [List.getElem?_append_right (by omega), Nat.add_sub_cancel_left, hb]
      | _ => rw [h3] at hr; cases hr
    | _ => rw [h2] at hr; cases hr
  | _ => rw [h1] at hr; cases hr

/-! ### Comparisons that succeed -/

theorem equiv_refl {m : TMap} (x : TT) : Equiv m x x := ⟨x, .refl, .refl⟩

theorem eqList_sound {f : TT → TT → Res Bool} {R : TT → TT → Prop} : ∀ {l l' : List TT}, (∀ x ∈ l, ∀ y ∈ l', f x y = .ok true → R x y) → eqList f l l' = .ok true → List.Forall₂ R l l'
  | [], [], _, _ => .nil
  | [], _ :: _, _, h => by cases h
  | _ :: _, [], _, h => by cases h
  | a :: l, b :: l', hf, h => by
    rw [eqList] at h
    cases hq : f a b with
    | ok v =>
      rw [hq, Res.ok_bind] at h
      cases v with
      | false => cases h
      | true => exact .cons (hf a (by simp) b (by simp) hq) (eqList_sound (fun x hx y hy => hf x (by simp [hx]) y (by simp [hy])) h)
    | _ => rw [hq] at h; cases h

/-- types found textually equal can be made identical -/
theorem textEq_sound (nd : Bool) {m : TMap} (h : WF m) (k : Nat) : ∀ x y, Plain m.length x → Plain m.length y → textEq nd m k x y = .ok true → Equiv m x y := by
  have hdef : ∀ n, n < m.length → ∃ b : Binding, m[n]? = some b ∧ Plain m.length b.tp := fun n hn =>
    ⟨_, List.getElem?_eq_getElem hn, (h.complete _ (List.getElem_mem hn)).2.2.1⟩
  induction k with
  | zero => intro x y _ _ h; cases h
  | succ k ih =>
    intro x y hx hy hr
    rw [textEq] at hr
    by_cases ht : x.tag = y.tag
    · rw [if_neg (by simp [ht])] at hr
      cases x with
      | undet =>
        cases y with
        | undet => exact equiv_refl _
        | _ => simp [TT.tag] at ht
      | prim a =>
        cases y with
        | prim b =>
          simp only [textKinds, Res.ok.injEq, beq_iff_eq] at hr
          rw [hr]
          exact equiv_refl _
        | _ => simp [TT.tag] at ht
      | var a =>
        cases y with
        | var b =>
          simp only [textKinds, Res.ok.injEq, beq_iff_eq] at hr
          rw [hr]
          exact equiv_refl _
        | _ => simp [TT.tag] at ht
      | func a r =>
        cases y with
        | func a' r' =>
          simp only [textKinds] at hr
          cases hq : eqT nd m k a a' with
          | ok v =>
            rw [hq, Res.ok_bind] at hr
            cases v with
            | false => cases hr
            | true => exact equiv_func.2 ⟨eqT_sound nd h hx.1 hy.1 hq, eqT_sound nd h hx.2 hy.2 hr⟩
          | _ => rw [hq] at hr; cases hr
        | _ => simp [TT.tag] at ht
      | row c =>
        cases y with
        | row c' => exact equiv_row.2 (ih c c' hx hy hr)
        | _ => simp [TT.tag] at ht
      | tuple l =>
        cases y with
        | tuple l' => exact equiv_tuple.2 (eqList_sound (fun x hx' y hy' => ih x y (plainL_iff.1 hx x hx') (plainL_iff.1 hy y hy')) hr)
        | _ => simp [TT.tag] at ht
      | union l =>
        cases y with
        | union l' => exact equiv_union.2 (eqList_sound (fun x hx' y hy' => ih x y (plainL_iff.1 hx x hx') (plainL_iff.1 hy y hy')) hr)
        | _ => simp [TT.tag] at ht
      | tabled n args =>
        cases y with
        | tabled n' args' =>
          obtain ⟨hn, rfl⟩ := hx
          obtain ⟨hn', rfl⟩ := hy
          by_cases he : n = n'
          · subst he; exact equiv_refl _
          · obtain ⟨b, hb, hp⟩ := hdef n hn
            obtain ⟨b', hb', hp'⟩ := hdef n' hn'
            simp only [textKinds, typeName] at hr
            rw [Vec.get, hb, Vec.get, hb', Res.ok_bind, Res.ok_bind, Res.ok_bind, Res.ok_bind] at hr
            by_cases hnm : b.name = b'.name
            · rw [if_neg (by simp [hnm]), if_neg (by simp [he]), expanded_ok nd h hb, Res.ok_bind, expanded_ok nd h hb', Res.ok_bind] at hr
              exact (equiv_tabled2 h hb hb' he).2 (ih _ _ hp hp' hr)
            · rw [if_pos hnm] at hr
              cases hr
        | _ => simp [TT.tag] at ht
    · rw [if_pos ht] at hr
      by_cases hxt : x.isTabled = true
      · rw [if_pos hxt] at hr
        cases x with
        | tabled n args =>
          obtain ⟨hn, rfl⟩ := hx
          obtain ⟨b, hb, hp⟩ := hdef n hn
          have hyt : y.isTabled = false := by
            cases y with
            | tabled n' args' => exact absurd rfl ht
            | _ => rfl
          simp only [typeName] at hr
          rw [Vec.get, hb, Res.ok_bind, Res.ok_bind] at hr
          by_cases hnm : b.name = none
          · rw [if_pos hnm, expanded_ok nd h hb, Res.ok_bind] at hr
            exact (equiv_tabled hb hyt).2 (ih _ _ hp hy hr)
          · rw [if_neg hnm] at hr
            cases hr
        | _ => simp [TT.isTabled] at hxt
      · rw [if_neg hxt] at hr
        by_cases hyt : y.isTabled = true
        · rw [if_pos hyt] at hr
          cases y with
          | tabled n args =>
            obtain ⟨hn, rfl⟩ := hy
            obtain ⟨b, hb, hp⟩ := hdef n hn
            simp only [typeName] at hr
            rw [Vec.get, hb, Res.ok_bind, Res.ok_bind] at hr
            by_cases hnm : b.name = none
            · rw [if_pos hnm, expanded_ok nd h hb, Res.ok_bind] at hr
              exact equiv_symm ((equiv_tabled hb (by simpa using hxt)).2 (equiv_symm (ih _ _ hx hp hr)))
            · rw [if_neg hnm] at hr
              cases hr
          | _ => simp [TT.isTabled] at hyt
        · rw [if_neg hyt] at hr
          cases hr

theorem findEntry_spec (nd : Bool) {m : TMap} {fuel id : Nat} {tp : TT} : ∀ {l : List Binding} {i j : Nat}, findEntry nd m fuel id tp l i = .ok (some j) →
    ∃ k e, l[k]? = some e ∧ j = i + k ∧ e.name = some id ∧ textEq nd m fuel e.tp tp = .ok true
  | [], _, _, h => by cases h
  | e :: l, i, j, h => by
    have key : findEntry nd m fuel id tp l (i + 1) = .ok (some j) → ∃ k e', (e :: l)[k]? = some e' ∧ j = i + k ∧ e'.name = some id ∧ textEq nd m fuel e'.tp tp = .ok true := fun h => by
      obtain ⟨k, e', h1, h2, h3⟩ := findEntry_spec nd h
      exact ⟨k + 1, e', by simpa using h1, by omega, h3⟩
    rw [findEntry] at h
    by_cases hn : e.name = some id
    · rw [if_pos hn] at h
      cases hq : textEq nd m fuel e.tp tp with
      | ok v =>
        rw [hq, Res.ok_bind] at h
        cases v with
        | false => exact key h
        | true => cases h; exact ⟨0, e, rfl, rfl, hn, hq⟩
      | _ => rw [hq] at h; cases h
    · rw [if_neg hn] at h
      exact key h

/-- expansions remain in an extended table -/
theorem exps_append {m es : TMap} {x y : TT} (h : Exps m x y) : Exps (m ++ es) x y := by
  have hE : ∀ x y, Expand m x y → Expand (m ++ es) x y := by
    have hL : ∀ l : List TT, (∀ x ∈ l, ∀ y, Expand m x y → Expand (m ++ es) x y) → ∀ l', ExpandL m l l' → ExpandL (m ++ es) l l' := by
      intro l
      induction l with
      | nil => rintro _ l' ⟨⟩
      | cons a l ih =>
        intro hl l' h
        cases h with
        | head _ h => exact .head _ (hl a (by simp) _ h)
        | tail _ h => exact .tail _ (ih (fun x hx => hl x (by simp [hx])) _ h)
    intro x
    induction x using TT.ind with
    | func a r ha hr =>
      intro y h
      cases h with
      | arg _ h => exact .arg _ (ha _ h)
      | res _ h => exact .res _ (hr _ h)
    | row c hc =>
      intro y h
      cases h with
      | row h => exact .row (hc _ h)
    | tuple l hl =>
      intro y h
      cases h with
      | tuple h => exact .tuple (hL l hl _ h)
    | union l hl =>
      intro y h
      cases h with
      | union h => exact .union (hL l hl _ h)
    | tabled n args _ =>
      intro y h
      cases h with
      | here h => exact .here (getElem?_append_some h)
    | _ => rintro y ⟨⟩
  exact liftRT id (fun a b => hE a b) h

theorem simple_spec (nd : Bool) (fuel : Nat) {m : TMap} (h : WF m) (id : Nat) {tp : TT} (hc : Closed tp) (hp : Plain m.length tp) {i : Nat} {m' : TMap}
    (hr : addSimple nd fuel m id tp 0 = .ok (i, m')) :
    WF m' ∧ (∃ es, m' = m ++ es) ∧ (∃ b, m'[i]? = some b ∧ b.name = some id) ∧ Equiv m' (.tabled i []) tp := by
  obtain ⟨tp', e1, hc', hp', hnt, heq⟩ : ∃ tp', expanded nd m tp = .ok tp' ∧ Closed tp' ∧ Plain m.length tp' ∧ tp'.isTabled = false ∧ Exps m tp tp' := by
    cases tp with
    | tabled n args =>
      obtain ⟨hn, rfl⟩ := hp
      obtain ⟨b, hb⟩ : ∃ b, m[n]? = some b := ⟨_, List.getElem?_eq_getElem hn⟩
      obtain ⟨_, q2, q3, q4⟩ := h.complete b (List.mem_of_getElem? hb)
      exact ⟨b.tp, expanded_ok nd h hb, q2, q3, q4, .single (.here hb)⟩
    | _ => exact ⟨_, rfl, hc, hp, rfl, .refl⟩
  rw [addSimple, e1, Res.ok_bind] at hr
  cases hf : findEntry nd m fuel id tp' m 0 with
  | ok r =>
    rw [hf, Res.ok_bind] at hr
    cases r with
    | some j =>
      cases hr
      obtain ⟨k, e, q1, rfl, q3, q4⟩ := findEntry_spec nd hf
      rw [Nat.zero_add]
      have he := h.complete e (List.mem_of_getElem? q1)
      refine ⟨h, ⟨[], by simp⟩, ⟨e, q1, q3⟩, ?_⟩
      exact equiv_trans ((equiv_tabled q1 hnt).2 (textEq_sound nd h fuel e.tp tp' he.2.2.1 hp' q4)) ⟨tp', .refl, heq⟩
    | none =>
      cases hr
      have hlen : (m ++ [(⟨some id, 0, false, tp'⟩ : Binding)]).length = m.length + 1 := by simp
      have hlast : (m ++ [(⟨some id, 0, false, tp'⟩ : Binding)])[m.length]? = some ⟨some id, 0, false, tp'⟩ := by simp
      have hold : ∀ n k, n < m.length → Refers (m ++ [⟨some id, 0, false, tp'⟩]) n k → k < m.length ∧ Refers m n k := by
        rintro n k hn ⟨b, hb, ho⟩
        rw [List.getElem?_append_left hn] at hb
        exact ⟨refers_lt h ⟨b, hb, ho⟩, b, hb, ho⟩
      have hstay : ∀ n k, TransGen (Refers (m ++ [⟨some id, 0, false, tp'⟩])) n k → n < m.length → k < m.length ∧ TransGen (Refers m) n k := by
        intro n k ht hn
        induction ht with
        | single ht => exact ⟨(hold _ _ hn ht).1, .single (hold _ _ hn ht).2⟩
        | tail _ ht ih => exact ⟨(hold _ _ ih.1 ht).1, ih.2.tail (hold _ _ ih.1 ht).2⟩
      refine ⟨⟨?_, ?_, ?_⟩, ⟨_, rfl⟩, ⟨_, hlast, rfl⟩, ?_⟩
      · intro b hb
        rw [hlen]
        rcases List.mem_append.1 hb with hb | hb
        · obtain ⟨q1, q2, q3, q4⟩ := h.complete b hb
          exact ⟨q1, q2, plain_mono (by omega) _ q3, q4⟩
        · rw [List.mem_singleton.1 hb]
          exact ⟨rfl, hc', plain_mono (by omega) _ hp', hnt⟩
      · intro n b hb ht
        by_cases hn : n < m.length
        · rw [List.getElem?_append_left hn] at hb
          exact h.marked n b hb (hstay n n ht hn).2
        · exfalso
          have hnl : n = m.length := by
            have := (List.getElem?_eq_some_iff.1 hb).1
            rw [hlen] at this
            omega
          subst hnl
          have hfirst : ∀ k, Refers (m ++ [⟨some id, 0, false, tp'⟩]) m.length k → k < m.length := by
            rintro k ⟨b', hb', ho⟩
            rw [hlast] at hb'
            cases hb'
            exact plain_occurs _ hp' ho
          obtain ⟨k, hk, hkr⟩ := TransGen.head'_iff.1 ht
          rcases ReflTransGen.cases_head hkr with e | ⟨c, hc1, hc2⟩
          · have := hfirst k hk
            omega
          · have := (hstay _ _ (TransGen.head' hc1 hc2) (hfirst k hk)).1
            omega
      · intro b hb hr c hc
        rcases List.mem_append.1 hb with hb | hb
        · exact h.flat b hb hr c hc
        · rw [List.mem_singleton.1 hb] at hr
          cases hr
      · exact ⟨tp', .single (Expand.here hlast), exps_append heq⟩
  | _ => rw [hf] at hr; cases hr

end Verif.Axis
