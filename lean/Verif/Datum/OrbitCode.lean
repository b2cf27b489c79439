import Verif.Datum.Orbit
import Verif.Datum.OrbitMath
import Verif.Datum.DomCode
/-
The code that computes Weyl orbits: levels, cosets and extension of orbits.
-/
namespace Verif.Datum
open Verif Verif.Mat Verif.Root
open scoped Matrix
set_option linter.unusedSectionVars false

variable {r : Nat} {ι : Type} {a c : ι → Fin r → ℤ} {lab : ι → Nat} {e : Fin r → ℤ}

/-- the elements of the list are obtained by words: each word is a letter before the word of an earlier element -/
inductive Chain (a c : ι → Fin r → ℤ) (lab : ι → Nat) (e : Fin r → ℤ) : List OrbElt → List (List ι) → Prop
  | init (x : OrbElt) : x.v = List.ofFn e → Chain a c lab e [x] [[]]
  | snoc {L : List OrbElt} {ws : List (List ι)} {x : OrbElt} {w : List ι} {i : ι} : Chain a c lab e L ws → ws[x.prev]? = some w → x.gen = lab i →
      x.v = List.ofFn (act a c (i :: w) e) → Chain a c lab e (L ++ [x]) (ws ++ [i :: w])

theorem Chain.vec {L : List OrbElt} {ws : List (List ι)} (h : Chain a c lab e L ws) : L.map OrbElt.v = ws.map fun w => List.ofFn (act a c w e) := by
  induction h with
  | init x h => simp [h, act]
  | snoc _ _ _ h ih => rw [List.map_append, List.map_append, ih, List.map_singleton, List.map_singleton, h]

theorem Chain.length {L : List OrbElt} {ws : List (List ι)} (h : Chain a c lab e L ws) : L.length = ws.length := by
  have := congrArg List.length h.vec
  simpa using this

theorem Chain.ne {L : List OrbElt} {ws : List (List ι)} (h : Chain a c lab e L ws) : L ≠ [] := by
  cases h <;> simp

theorem Chain.map {κ : Type} {f : κ → ι} {L : List OrbElt} {ws : List (List κ)} (h : Chain (fun k => a (f k)) (fun k => c (f k)) (fun k => lab (f k)) e L ws) :
    Chain a c lab e L (ws.map fun w => w.map f) := by
  have hact : ∀ w : List κ, act (fun k => a (f k)) (fun k => c (f k)) w e = act a c (w.map f) e := fun w => by
    induction w with
    | nil => rfl
    | cons s w ih => simp only [act, ih, List.map_cons]
  induction h with
  | init x h => exact .init x h
  | snoc h h1 h2 h3 ih =>
    rw [List.map_append, List.map_singleton, List.map_cons]
    refine .snoc ih (by rw [List.getElem?_map, h1]; rfl) h2 ?_
    rw [h3, hact]; rfl

/-! ### levels -/

/-- access to roots, coroots and reflections -/
structure AccOK (A : Access) (a c : ι → Fin r → ℤ) (lab : ι → Nat) : Prop where
  root : ∀ i, A.root (lab i) = .ok (List.ofFn (a i))
  coroot : ∀ i, A.coroot (lab i) = .ok (List.ofFn (c i))
  reflect : ∀ i v, A.reflect (lab i) (List.ofFn v) = .ok (List.ofFn (refl (a i) (c i) v))

section
variable {P : Finset ℕ} {g : ι → ℕ} {ro co : ℕ → Fin r → ℤ} {A : Access} (nd : Bool)
  (hsys : Sys P g ro co) (hro : ∀ i, ro (g i) = a i) (hco : ∀ i, co (g i) = c i) (hA : AccOK A a c lab)
include hsys hro hco hA

theorem genLoop_ok {m : Nat} {D : List OrbElt} {ws : List (List ι)} {count : Nat} {w : List ι} (hw : ws[count]? = some w) (hm : negs P co (act a c w e) = m) :
    ∀ (ss : List Nat) (new : List OrbElt) (nws : List (List ι)), (∀ s ∈ ss, ∃ i, lab i = s) → Chain a c lab e (D ++ new) (ws ++ nws) → D.length = ws.length →
      (nws.map fun w => act a c w e).Nodup → (∀ w' ∈ nws, negs P co (act a c w' e) = m + 1) →
      ∃ new' nws', genLoop nd A (List.ofFn (act a c w e)) count ss new = .ok new' ∧ Chain a c lab e (D ++ new') (ws ++ nws') ∧
        (nws'.map fun w => act a c w e).Nodup ∧ (∀ w' ∈ nws', negs P co (act a c w' e) = m + 1) ∧ (∀ w' ∈ nws, w' ∈ nws') ∧
        ∀ i, lab i ∈ ss → 0 < act a c w e ⬝ᵥ c i → ∃ w' ∈ nws', act a c w' e = act a c (i :: w) e := by
  intro ss
  induction ss with
  | nil => intro new nws _ h1 _ h2 h3; exact ⟨new, nws, rfl, h1, h2, h3, fun _ h => h, fun i hi => by simp at hi⟩
  | cons s ss ih =>
    intro new nws hs h1 hlen h2 h3
    obtain ⟨i, rfl⟩ := hs s (by simp)
    -- the letters with the same label have the same coroot
    have hlab : ∀ j, lab j = lab i → c j = c i ∧ a j = a i := fun j hj => by
      have h4 := hA.coroot j
      have h5 := hA.root j
      rw [hj, hA.coroot i] at h4
      rw [hj, hA.root i] at h5
      exact ⟨(List.ofFn_injective (Res.ok.inj h4)).symm, (List.ofFn_injective (Res.ok.inj h5)).symm⟩
    rw [genLoop, hA.coroot, Res.ok_bind, C45_dot, Res.ok_bind]
    by_cases hpos : act a c w e ⬝ᵥ c i ≤ 0
    · rw [if_pos hpos]
      obtain ⟨new', nws', g1, g2, g3, g4, g5, g6⟩ := ih new nws (fun s hs' => hs s (by simp [hs'])) h1 hlen h2 h3
      refine ⟨new', nws', g1, g2, g3, g4, g5, fun j hj hj' => ?_⟩
      rcases List.mem_cons.1 hj with h | h
      · rw [(hlab j h).1] at hj'; omega
      · exact g6 j h hj'
    · rw [if_neg hpos, hA.root, Res.ok_bind, C45_vecSubMul, Res.ok_bind]
      have hwt : act a c w e - (act a c w e ⬝ᵥ c i) • a i = act a c (i :: w) e := rfl
      rw [hwt]
      have hany : (new.any fun x => x.v == List.ofFn (act a c (i :: w) e)) = true ↔ ∃ w' ∈ nws, act a c w' e = act a c (i :: w) e := by
        have hv : new.map OrbElt.v = nws.map fun w => List.ofFn (act a c w e) := by
          have := h1.vec
          rw [List.map_append, List.map_append] at this
          exact (List.append_inj this (by simpa using hlen)).2
        rw [List.any_eq_true]
        constructor
        · rintro ⟨x, hx, hx'⟩
          have : x.v ∈ nws.map fun w => List.ofFn (act a c w e) := hv ▸ List.mem_map_of_mem hx
          obtain ⟨w', h4, h5⟩ := List.mem_map.1 this
          rw [beq_iff_eq] at hx'
          rw [hx'] at h5
          exact ⟨w', h4, List.ofFn_injective h5⟩
        · rintro ⟨w', h4, h5⟩
          have : List.ofFn (act a c w' e) ∈ new.map OrbElt.v := hv ▸ List.mem_map.2 ⟨w', h4, rfl⟩
          obtain ⟨x, hx, hx'⟩ := List.mem_map.1 this
          exact ⟨x, hx, by rw [beq_iff_eq, hx', h5]⟩
      by_cases hh : (new.any fun x => x.v == List.ofFn (act a c (i :: w) e)) = true
      · rw [if_pos hh]
        obtain ⟨w1, h4, h5⟩ := hany.1 hh
        obtain ⟨new', nws', g1, g2, g3, g4, g5, g6⟩ := ih new nws (fun s hs' => hs s (by simp [hs'])) h1 hlen h2 h3
        refine ⟨new', nws', g1, g2, g3, g4, g5, fun j hj hj' => ?_⟩
        rcases List.mem_cons.1 hj with h | h
        · exact ⟨w1, g5 _ h4, by rw [h5, act, act, (hlab j h).1, (hlab j h).2]⟩
        · exact g6 j h hj'
      · rw [if_neg hh]
        have hup : negs P co (act a c (i :: w) e) = m + 1 := by
          have := hsys.negs_up (i := i) (v := act a c w e) (by rw [hco]; omega)
          rw [hro, hco, hm] at this
          exact this
        obtain ⟨new', nws', g1, g2, g3, g4, g5, g6⟩ := ih (new ++ [⟨List.ofFn (act a c (i :: w) e), lab i, count⟩]) (nws ++ [i :: w])
          (fun s hs' => hs s (by simp [hs'])) (by
            rw [← List.append_assoc, ← List.append_assoc]
            refine .snoc h1 ?_ rfl rfl
            rw [List.getElem?_append_left (by
              have := List.getElem?_eq_some_iff.1 hw
              exact this.1)]
            exact hw) hlen (by
            rw [List.map_append, List.map_singleton, ← List.concat_eq_append]
            refine h2.concat fun h => hh (hany.2 ?_)
            obtain ⟨w', h4, h5⟩ := List.mem_map.1 h
            exact ⟨w', h4, h5⟩) (fun w' hw' => by
            rcases List.mem_append.1 hw' with h | h
            · exact h3 w' h
            · rw [List.mem_singleton] at h; subst h; exact hup)
        refine ⟨new', nws', g1, g2, g3, g4, fun w' hw' => g5 _ (List.mem_append_left _ hw'), fun j hj hj' => ?_⟩
        rcases List.mem_cons.1 hj with h | h
        · exact ⟨i :: w, g5 _ (by simp), by rw [act, act, (hlab j h).1, (hlab j h).2]⟩
        · exact g6 j h hj'

theorem levelLoop_ok {m : Nat} {stab : List Nat} (hstab : ∀ s, s ∈ stab ↔ ∃ i, lab i = s) {ws : List (List ι)} {D : List OrbElt} :
    ∀ (cur pre new : List OrbElt) (nws cws : List (List ι)), D = pre ++ cur → ws.drop pre.length = cws → Chain a c lab e (D ++ new) (ws ++ nws) → D.length = ws.length →
      (∀ w ∈ cws, negs P co (act a c w e) = m) →
      (nws.map fun w => act a c w e).Nodup → (∀ w' ∈ nws, negs P co (act a c w' e) = m + 1) →
      ∃ new' nws', levelLoop nd A stab pre.length cur new = .ok new' ∧ Chain a c lab e (D ++ new') (ws ++ nws') ∧
        (nws'.map fun w => act a c w e).Nodup ∧ (∀ w' ∈ nws', negs P co (act a c w' e) = m + 1) ∧ (∀ w' ∈ nws, w' ∈ nws') ∧
        ∀ w ∈ cws, ∀ i, 0 < act a c w e ⬝ᵥ c i → ∃ w' ∈ nws', act a c w' e = act a c (i :: w) e := by
  intro cur
  induction cur with
  | nil =>
    intro pre new nws cws hD hc h1 hlen h2 h3 h4
    refine ⟨new, nws, rfl, h1, h3, h4, fun _ h => h, fun w hw => ?_⟩
    rw [List.append_nil] at hD
    rw [← hc, ← hD, hlen, List.drop_length] at hw
    simp at hw
  | cons x xs ih =>
    intro pre new nws cws hD hc h1 hlen h2 h3 h4
    have hlt : pre.length < ws.length := by
      have := congrArg List.length hD
      rw [List.length_append, List.length_cons] at this
      omega
    have hw : ws[pre.length]? = some ws[pre.length] := List.getElem?_eq_getElem hlt
    have hx : x.v = List.ofFn (act a c ws[pre.length] e) := by
      have hv := h1.vec
      rw [List.map_append, List.map_append] at hv
      have h5 := (List.append_inj hv (by simpa using hlen)).1
      have h6 := congrArg (fun l => l[pre.length]?) h5
      simp only [List.getElem?_map, hw, hD] at h6
      simpa using h6
    have hcws : cws = ws[pre.length] :: ws.drop (pre.length + 1) := by rw [← hc, List.drop_eq_getElem_cons hlt]
    have hm := h2 ws[pre.length] (by rw [hcws]; exact List.mem_cons_self)
    obtain ⟨new1, nws1, g1, g2, g3, g4, g5, g6⟩ := genLoop_ok nd hsys hro hco hA hw hm stab new nws (fun s hs => (hstab s).1 hs) h1 hlen h3 h4
    obtain ⟨new2, nws2, k1, k2, k3, k4, k5, k6⟩ := ih (pre ++ [x]) new1 nws1 (ws.drop (pre.length + 1)) (by rw [hD]; simp) (by simp) g2 hlen
      (fun w hw => h2 w (by rw [hcws]; exact List.mem_cons_of_mem _ hw)) g3 g4
    refine ⟨new2, nws2, ?_, k2, k3, k4, fun w' hw' => k5 _ (g5 _ hw'), fun w hw i hi => ?_⟩
    · rw [levelLoop, hx, g1, Res.ok_bind]
      rw [List.length_append, List.length_singleton] at k1
      exact k1
    · rw [hcws] at hw
      rcases List.mem_cons.1 hw with rfl | hw
      · obtain ⟨w', h5, h6⟩ := g6 i ((hstab _).2 ⟨i, rfl⟩) hi
        exact ⟨w', k5 _ h5, h6⟩
      · exact k6 w hw i hi

/-- the elements of the orbit of a dominant vector at a level come from the level below -/
theorem level_step {m : Nat} {cws nws : List (List ι)} (h1 : ∀ w, negs P co (act a c w e) = m → ∃ w' ∈ cws, act a c w' e = act a c w e)
    (h2 : ∀ w ∈ cws, ∀ i, 0 < act a c w e ⬝ᵥ c i → ∃ w' ∈ nws, act a c w' e = act a c (i :: w) e) {w : List ι} (hw : negs P co (act a c w e) = m + 1) :
    ∃ w' ∈ nws, act a c w' e = act a c w e := by
  have h3 : ∃ i, act a c w e ⬝ᵥ c i < 0 := by
    by_contra hh
    push Not at hh
    have := hsys.negs_eq_zero (v := act a c w e)
    rw [hw] at this
    exact absurd (this.2 fun i => by rw [hco]; exact hh i) (by omega)
  obtain ⟨i, hi⟩ := h3
  have h4 := hsys.negs_down (i := i) (v := act a c w e) (by rw [hco]; exact hi)
  rw [hro, hco] at h4
  obtain ⟨w1, h5, h6⟩ := h1 (i :: w) (by simp only [act]; omega)
  have h7 : refl (a i) (c i) (act a c (i :: w) e) = act a c w e := by
    rw [act, refl_refl]
    have := hsys.two _ (hsys.mem i)
    rwa [hro, hco] at this
  have h8 : 0 < act a c w1 e ⬝ᵥ c i := by
    rw [h6, act, ← hro, ← hco, hsys.refl_self, hco]; omega
  obtain ⟨w2, h9, h10⟩ := h2 w1 h5 i h8
  exact ⟨w2, h9, by rw [h10, act, h6, h7]⟩

theorem growLoop_ok (hdom : ∀ i, 0 ≤ e ⬝ᵥ c i) {stab : List Nat} (hstab : ∀ s, s ∈ stab ↔ ∃ i, lab i = s) :
    ∀ (fuel m : Nat) (done cur : List OrbElt) (dws cws : List (List ι)), Chain a c lab e (done ++ cur) (dws ++ cws) → done.length = dws.length →
      ((dws ++ cws).map fun w => act a c w e).Nodup → (∀ w ∈ dws, negs P co (act a c w e) < m) → (∀ w ∈ cws, negs P co (act a c w e) = m) →
      (∀ w, negs P co (act a c w e) ≤ m → ∃ w' ∈ dws ++ cws, act a c w' e = act a c w e) → P.card + 1 ≤ m + fuel → (0 < fuel) →
      ∃ L ws, growLoop nd A stab fuel done cur = .ok L ∧ Chain a c lab e L ws ∧ (ws.map fun w => act a c w e).Nodup ∧ ∀ w, ∃ w' ∈ ws, act a c w' e = act a c w e := by
  intro fuel
  induction fuel with
  | zero => intro m done cur dws cws _ _ _ _ _ _ _ h; omega
  | succ fuel ih =>
    intro m done cur dws cws h1 hlen h2 h3 h4 h5 hf _
    have hlen' : (done ++ cur).length = (dws ++ cws).length := h1.length
    obtain ⟨new, nws, g1, g2, g3, g4, -, g6⟩ := levelLoop_ok (m := m) nd hsys hro hco hA hstab cur done [] [] cws rfl (by rw [hlen]; simp) (by simpa using h1) hlen' h4 (by simp) (by simp)
    have hcur : ∀ w, negs P co (act a c w e) = m → ∃ w' ∈ cws, act a c w' e = act a c w e := fun w hw => by
      obtain ⟨w', h6, h7⟩ := h5 w (by omega)
      rcases List.mem_append.1 h6 with h | h
      · have := h3 w' h
        rw [h7] at this
        omega
      · exact ⟨w', h, h7⟩
    have hstep := fun w => level_step (w := w) hsys hro hco hA hcur g6
    rw [growLoop, g1, Res.ok_bind]
    have hnl : new.length = nws.length := by
      have := g2.length
      simp only [List.length_append] at this hlen'
      omega
    cases new with
    | nil =>
      have hn : nws = [] := List.length_eq_zero_iff.1 hnl.symm
      subst hn
      rw [if_pos (by rfl)]
      refine ⟨_, _, rfl, h1, h2, ?_⟩
      have hlow : ∀ w, negs P co (act a c w e) ≤ m := fun w => by
        induction w with
        | nil =>
          rw [act, hsys.negs_eq_zero.2 fun i => by rw [hco]; exact hdom i]; omega
        | cons i w ihw =>
          by_contra hh
          have h6 := hsys.negs_le i (act a c (i :: w) e)
          rw [hro, hco, act, refl_refl (by have := hsys.two _ (hsys.mem i); rwa [hro, hco] at this)] at h6
          obtain ⟨w', h7, -⟩ := hstep (i :: w) (by rw [act] at hh ⊢; omega)
          simp at h7
      exact fun w => h5 w (hlow w)
    | cons x xs =>
      rw [if_neg (by simp)]
      have hne : ∃ w', w' ∈ nws := by
        cases nws with
        | nil => simp at hnl
        | cons w' _ => exact ⟨w', by simp⟩
      obtain ⟨w', hw'⟩ := hne
      have hmle : m + 1 ≤ P.card := by rw [← g4 w' hw']; exact negs_le_card _ _ _
      refine ih (m + 1) (done ++ cur) (x :: xs) (dws ++ cws) nws g2 hlen' ?_ (fun w hw => ?_) g4 (fun w hw => ?_) (by omega) (by omega)
      · rw [List.map_append, List.nodup_append]
        refine ⟨h2, g3, fun u hu v hv huv => ?_⟩
        obtain ⟨w1, h6, rfl⟩ := List.mem_map.1 hu
        obtain ⟨w2, h7, rfl⟩ := List.mem_map.1 hv
        have h8 := g4 w2 h7
        rw [← huv] at h8
        rcases List.mem_append.1 h6 with h | h
        · have := h3 w1 h; omega
        · have := h4 w1 h; omega
      · rcases List.mem_append.1 hw with h | h
        · have := h3 w h; omega
        · have := h4 w h; omega
      · by_cases hh : negs P co (act a c w e) ≤ m
        · obtain ⟨w1, h6, h7⟩ := h5 w hh
          exact ⟨w1, List.mem_append_left _ h6, h7⟩
        · obtain ⟨w1, h6, h7⟩ := hstep w (by omega)
          exact ⟨w1, List.mem_append_right _ h6, h7⟩

theorem basicCore_ok {i : ι} (he : ∀ j, j ≠ i → e ⬝ᵥ c j = 0) (hi : 0 < e ⬝ᵥ c i) {stab : List Nat} (hstab : ∀ s, s ∈ stab ↔ ∃ i, lab i = s) {fuel : Nat} (hf : P.card ≤ fuel)
    (hf0 : 0 < fuel) : ∃ L ws, basicCore nd A fuel stab (lab i) (List.ofFn e) = .ok L ∧ Chain a c lab e L ws ∧ (ws.map fun w => act a c w e).Nodup ∧
      ∀ w, ∃ w' ∈ ws, act a c w' e = act a c w e := by
  classical
  have hdom : ∀ j, 0 ≤ e ⬝ᵥ c j := fun j => by
    by_cases h : j = i
    · subst h; omega
    · rw [he j h]
  have h0 : negs P co e = 0 := hsys.negs_eq_zero.2 fun i => by rw [hco]; exact hdom i
  have h1 : negs P co (refl (a i) (c i) e) = 1 := by
    have := hsys.negs_up (i := i) (v := e) (by rw [hco]; exact hi)
    rwa [hro, hco, h0] at this
  have hzero : ∀ w, negs P co (act a c w e) = 0 → act a c w e = e := fun w hw => by
    have h2 := hsys.negs_eq_zero.1 hw
    have h3 := hsys.dom_unique (v := e) (w := w) (fun i => by rw [hco]; exact hdom i) (by rw [funext hro, funext hco]; exact h2)
    rwa [funext hro, funext hco] at h3
  rw [basicCore, hA.reflect, Res.ok_bind]
  refine growLoop_ok nd hsys hro hco hA hdom hstab fuel 1 [_] [_] [[]] [[i]] (.snoc (.init _ rfl) (by rfl) rfl rfl) rfl ?_ ?_ ?_ ?_ (by omega) hf0
  · simp only [List.singleton_append, List.map_cons, List.map_nil, List.nodup_cons, List.mem_singleton, List.not_mem_nil, not_false_eq_true, List.nodup_nil, and_true, act]
    intro h
    rw [← h, h0] at h1
    omega
  · simp [act, h0]
  · simp [act, h1]
  · intro w hw
    rcases Nat.lt_or_ge (negs P co (act a c w e)) 1 with h | h
    · exact ⟨[], by simp, by rw [hzero w (by omega)]; rfl⟩
    · have hstep := level_step (w := w) (m := 0) (e := e) (cws := [[]]) (nws := [[i]]) hsys hro hco hA (fun w hw => ⟨[], by simp, by rw [hzero w hw]; rfl⟩) (fun w hw j hj => by
        rw [List.mem_singleton] at hw
        subst hw
        rw [act] at hj
        have : j = i := by
          by_contra hh
          rw [he j hh] at hj
          omega
        subst this
        exact ⟨_, by simp, rfl⟩) (by omega)
      obtain ⟨w', h2, h3⟩ := hstep
      exact ⟨w', List.mem_append_right _ h2, h3⟩

end

/-! ### extension of orbits -/

theorem extendOne_append {X : Type} (op : Nat → X → Res X) : ∀ (cs : List OrbElt) (x : OrbElt) (ref : List X),
    extendOne op (cs ++ [x]) ref = (extendOne op cs ref).bind fun l => (Vec.get l x.prev).bind fun y => (op x.gen y).bind fun z => .ok (l ++ [z]) := by
  intro cs
  induction cs with
  | nil => intro x ref; rfl
  | cons y ys ih =>
    intro x ref
    rw [List.cons_append, extendOne, extendOne]
    cases h : Vec.get ref y.prev with
    | ok z =>
      rw [Res.ok_bind, Res.ok_bind]
      cases h2 : op y.gen z with
      | ok t => rw [Res.ok_bind, Res.ok_bind, ih]
      | _ => rfl
    | _ => rfl

section
variable {X : Type} {op : Nat → X → Res X} {Rel : X → (Fin r → ℤ) → Prop}

theorem extendOne_ok (hop : ∀ i x u, Rel x u → ∃ y, op (lab i) x = .ok y ∧ Rel y (refl (a i) (c i) u)) {L : List OrbElt} {ws : List (List ι)} (h : Chain a c lab e L ws)
    {x : X} {u : Fin r → ℤ} (hx : Rel x u) : ∃ l, extendOne op L.tail [x] = .ok l ∧ List.Forall₂ Rel l (ws.map fun w => act a c w u) := by
  induction h with
  | init y h => exact ⟨[x], rfl, .cons hx .nil⟩
  | snoc h h1 h2 h3 ih =>
    obtain ⟨l, h4, h5⟩ := ih
    rename_i L ws y w i
    have hl : y.prev < ws.length := (List.getElem?_eq_some_iff.1 h1).1
    have hl' : y.prev < l.length := by
      have := h5.length_eq
      rw [List.length_map] at this
      omega
    have hget : ws[y.prev] = w := (List.getElem?_eq_some_iff.1 h1).2
    have h6 : Rel l[y.prev] (act a c w u) := by
      have := h5.get (i := y.prev) hl' (by simpa using hl)
      simpa [hget] using this
    obtain ⟨z, h7, h8⟩ := hop i _ _ h6
    refine ⟨l ++ [z], ?_, ?_⟩
    · rw [List.tail_append_of_ne_nil h.ne, extendOne_append, h4]
      show (Vec.get l y.prev).bind _ = _
      rw [Vec.get_ok hl']
      show (op y.gen _).bind _ = _
      rw [h2, h7]
      rfl
    · rw [List.map_append, List.map_singleton]
      exact List.rel_append h5 (.cons h8 .nil)

theorem extendOrbit_ok (hop : ∀ i x u, Rel x u → ∃ y, op (lab i) x = .ok y ∧ Rel y (refl (a i) (c i) u)) {L : List OrbElt} {ws : List (List ι)} (h : Chain a c lab e L ws)
    {os : List X} {us : List (Fin r → ℤ)} (hx : List.Forall₂ Rel os us) :
    ∃ l, extendOrbit op L os = .ok l ∧ List.Forall₂ Rel l (us.flatMap fun u => ws.map fun w => act a c w u) := by
  induction hx with
  | nil => exact ⟨[], rfl, .nil⟩
  | cons hx _ ih =>
    obtain ⟨l, h1, h2⟩ := ih
    obtain ⟨l0, h3, h4⟩ := extendOne_ok hop h hx
    refine ⟨l0 ++ l, ?_, ?_⟩
    · rw [extendOrbit, h3, Res.ok_bind, h1, Res.ok_bind]
    · rw [List.flatMap_cons]
      exact List.rel_append h4 h2

end

/-! ### the loop on generators -/

theorem mem_insertAsc {i s : Nat} : ∀ {l : List Nat}, s ∈ insertAsc i l ↔ s = i ∨ s ∈ l
  | [] => by simp [insertAsc]
  | t :: l => by
    rw [insertAsc]
    by_cases h1 : i < t
    · rw [if_pos h1]; simp
    · rw [if_neg h1]
      by_cases h2 : i = t
      · rw [if_pos h2]; subst h2; simp
      · rw [if_neg h2, List.mem_cons, mem_insertAsc, List.mem_cons]; tauto

theorem mem_sortAsc {s : Nat} : ∀ {l : List Nat}, s ∈ sortAsc l ↔ s ∈ l
  | [] => by simp [sortAsc]
  | t :: l => by rw [sortAsc, mem_insertAsc, mem_sortAsc, List.mem_cons]

theorem splitGens_ok (nd : Bool) {A : Access} (hA : AccOK A a c lab) (v : Fin r → ℤ) : ∀ is : List ι,
    splitGens nd A (List.ofFn v) (is.map lab) = .ok ((is.filter fun i => v ⬝ᵥ c i = 0).map lab, (is.filter fun i => ¬ v ⬝ᵥ c i = 0).map lab)
  | [] => rfl
  | i :: is => by
    rw [List.map_cons, splitGens, hA.coroot, Res.ok_bind, C45_dot, Res.ok_bind, splitGens_ok nd hA v is, Res.ok_bind, dotProduct_comm]
    simp only []
    by_cases h : v ⬝ᵥ c i = 0
    · rw [if_pos h, List.filter_cons_of_pos (by simpa using h), List.filter_cons_of_neg (by simpa using h)]; rfl
    · rw [if_neg h, List.filter_cons_of_neg (by simpa using h), List.filter_cons_of_pos (by simpa using h)]; rfl

section
variable [Fintype ι] {X : Type} {op : Nat → X → Res X} {Rel : X → (Fin r → ℤ) → Prop} {P : Finset ℕ} {g : ι → ℕ} {ro co : ℕ → Fin r → ℤ}

/-- what a function `basic_orbit` should give -/
def BasicOK (a c : ι → Fin r → ℤ) (lab : ι → Nat) (basic : List Nat → Nat → Res (List OrbElt × List Nat)) : Prop :=
  ∀ (J : ι → Prop) (stab : List Nat) (i : ι), (∀ s, s ∈ stab ↔ ∃ j, J j ∧ lab j = s) → ¬ J i →
    ∃ L ws e, basic stab (lab i) = .ok (L, insertAsc (lab i) stab) ∧ Chain a c lab e L ws ∧ Reps a c (fun j => J j ∨ j = i) e ws ∧ (∀ j, J j → e ⬝ᵥ c j = 0) ∧ 0 < e ⬝ᵥ c i

theorem orbitLoop_ok (h : Gen a c P g ro co) {basic : List Nat → Nat → Res (List OrbElt × List Nat)} (hb : BasicOK a c lab basic)
    (hop : ∀ i x u, Rel x u → ∃ y, op (lab i) x = .ok y ∧ Rel y (refl (a i) (c i) u)) {v : Fin r → ℤ} (hv : ∀ i, 0 ≤ v ⬝ᵥ c i) :
    ∀ (is : List ι) (J : ι → Prop) (stab : List Nat) (os : List X) (us : List (Fin r → ℤ)), is.Nodup → (∀ i ∈ is, ¬ J i ∧ v ⬝ᵥ c i ≠ 0) →
      (∀ i, v ⬝ᵥ c i = 0 → J i) → (∀ s, s ∈ stab ↔ ∃ j, J j ∧ lab j = s) → List.Forall₂ Rel os us → IsOrbit a c J v us →
      ∃ l us', orbitLoop basic op (is.map lab) stab os = .ok l ∧ List.Forall₂ Rel l us' ∧ IsOrbit a c (fun j => J j ∨ j ∈ is) v us' := by
  intro is
  induction is with
  | nil =>
    intro J stab os us _ _ _ _ h5 h6
    refine ⟨os, us, rfl, h5, ?_⟩
    have : (fun j => J j ∨ j ∈ ([] : List ι)) = J := funext fun j => by simp
    rw [this]; exact h6
  | cons i is ih =>
    intro J stab os us h1 h2 h3 h4 h5 h6
    have hi := h2 i (by simp)
    obtain ⟨L, ws, e, b1, b2, b3, b4, b5⟩ := hb J stab i h4 hi.1
    obtain ⟨l, x1, x2⟩ := extendOrbit_ok hop b2 h5
    have hO := h.extend (J := J) (J' := fun j => J j ∨ j = i) (fun j hj => .inl hj) b3 b4 (fun j hj hj' => by
      rcases hj with hj | rfl
      · exact absurd hj hj'
      · exact b5) (fun j _ => hv j) (fun j _ hj => h3 j hj) h6
    obtain ⟨l', us', y1, y2, y3⟩ := ih (fun j => J j ∨ j = i) (insertAsc (lab i) stab) l _ (List.nodup_cons.1 h1).2 (fun j hj => ⟨fun hh => by
      rcases hh with hh | rfl
      · exact (h2 j (by simp [hj])).1 hh
      · exact (List.nodup_cons.1 h1).1 hj, (h2 j (by simp [hj])).2⟩) (fun j hj => .inl (h3 j hj)) (fun s => by
        rw [mem_insertAsc, h4]
        constructor
        · rintro (rfl | ⟨j, hj, rfl⟩)
          · exact ⟨i, .inr rfl, rfl⟩
          · exact ⟨j, .inl hj, rfl⟩
        · rintro ⟨j, hj | rfl, rfl⟩
          · exact .inr ⟨j, hj, rfl⟩
          · exact .inl rfl) x2 hO
    refine ⟨l', us', ?_, y2, ?_⟩
    · rw [List.map_cons, orbitLoop, b1, Res.ok_bind]
      show (extendOrbit op L os >>= _) = _
      rw [x1, Res.ok_bind]
      exact y1
    · have : (fun j => (J j ∨ j = i) ∨ j ∈ is) = fun j => J j ∨ j ∈ i :: is := funext fun j => by simp [or_assoc]
      rw [← this]; exact y3

/-- the loop, started with the generators that fix the vector -/
theorem orbit_ok (nd : Bool) {A : Access} (hA : AccOK A a c lab) (h : Gen a c P g ro co) {basic : List Nat → Nat → Res (List OrbElt × List Nat)} (hb : BasicOK a c lab basic)
    (hop : ∀ i x u, Rel x u → ∃ y, op (lab i) x = .ok y ∧ Rel y (refl (a i) (c i) u)) {v : Fin r → ℤ} (hv : ∀ i, 0 ≤ v ⬝ᵥ c i) {gs : List ι} (hgs : gs.Nodup) (hall : ∀ i, i ∈ gs)
    {x : X} (hx : Rel x v) (f : List Nat → List Nat) (hf : ∀ l s, s ∈ f l ↔ s ∈ l) : ∃ st l us, splitGens nd A (List.ofFn v) (gs.map lab) = .ok st ∧
      orbitLoop basic op st.2 (f st.1) [x] = .ok l ∧ List.Forall₂ Rel l us ∧ IsOrbit a c (fun _ => True) v us := by
  obtain ⟨l, us, h1, h2, h3⟩ := orbitLoop_ok (op := op) (Rel := Rel) h hb hop hv (gs.filter fun i => ¬ v ⬝ᵥ c i = 0) (fun j => v ⬝ᵥ c j = 0)
    (f ((gs.filter fun i => v ⬝ᵥ c i = 0).map lab)) [x] [v] (hgs.filter _) (fun i hi => by
      have := (List.mem_filter.1 hi).2
      simp only [decide_eq_true_eq] at this
      exact ⟨this, this⟩) (fun i hi => hi) (fun s => by
      rw [hf, List.mem_map]
      constructor
      · rintro ⟨j, hj, rfl⟩
        have := (List.mem_filter.1 hj).2
        simp only [decide_eq_true_eq] at this
        exact ⟨j, this, rfl⟩
      · rintro ⟨j, hj, rfl⟩
        exact ⟨j, List.mem_filter.2 ⟨hall j, by simpa using hj⟩, rfl⟩) (.cons hx .nil) ⟨by simp, fun u => by
      rw [List.mem_singleton]
      constructor
      · rintro rfl
        exact ⟨[], fun i hi => by simp at hi, rfl⟩
      · rintro ⟨w, hw, rfl⟩
        exact act_fix hw⟩
  refine ⟨_, l, us, splitGens_ok nd hA v gs, h1, h2, ?_⟩
  have : (fun j => v ⬝ᵥ c j = 0 ∨ j ∈ gs.filter fun i => ¬ v ⬝ᵥ c i = 0) = fun _ => True := funext fun j => by
    simp only [eq_iff_iff, iff_true, List.mem_filter, decide_eq_true_eq]
    by_cases hj : v ⬝ᵥ c j = 0
    · exact .inl hj
    · exact .inr ⟨hall j, hj⟩
  rw [← this]; exact h3

end

end Verif.Datum
