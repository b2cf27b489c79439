import Verif.Datum.Spec
import Mathlib.Data.Finset.Card
/-
Dominance for a finite system of positive roots with reflections (mathematics for C70): counting negative positive coroots, and the deletion argument.
-/
namespace Verif.Datum
open scoped Matrix

variable {r : Nat} {ι : Type}

theorem refl_dot (a c v x : Fin r → ℤ) : refl a c v ⬝ᵥ x = v ⬝ᵥ x - (v ⬝ᵥ c) * (a ⬝ᵥ x) := by
  rw [refl, sub_dotProduct, smul_dotProduct, smul_eq_mul]

/-- positive roots `P` with vectors `ro`, `co`, and among them simple ones `g i` -/
structure Sys (P : Finset ℕ) (g : ι → ℕ) (ro co : ℕ → Fin r → ℤ) : Prop where
  mem : ∀ i, g i ∈ P
  two : ∀ b ∈ P, ro b ⬝ᵥ co b = 2
  perm : ∀ i, ∀ b ∈ P, b ≠ g i → ∃ c ∈ P, c ≠ g i ∧ ro c = refl (ro (g i)) (co (g i)) (ro b) ∧ co c = refl (co (g i)) (ro (g i)) (co b)
  inj : ∀ b ∈ P, ∀ c ∈ P, ro b = ro c ∨ co b = co c → b = c
  pos : ∀ b ∈ P, (∃ l : List ι, ro b = (l.map fun i => ro (g i)).sum) ∧ ∃ l : List ι, co b = (l.map fun i => co (g i)).sum

variable {P : Finset ℕ} {g : ι → ℕ} {ro co : ℕ → Fin r → ℤ}

theorem Sys.swap (h : Sys P g ro co) : Sys P g co ro where
  mem := h.mem
  two := fun b hb => by rw [dotProduct_comm]; exact h.two b hb
  perm := fun i b hb hne => by
    obtain ⟨c, hc, hne', h1, h2⟩ := h.perm i b hb hne
    exact ⟨c, hc, hne', h2, h1⟩
  inj := fun b hb c hc hh => h.inj b hb c hc hh.symm
  pos := fun b hb => ⟨(h.pos b hb).2, (h.pos b hb).1⟩

/-- the number of positive coroots that are negative on `v` -/
def negs (P : Finset ℕ) (co : ℕ → Fin r → ℤ) (v : Fin r → ℤ) : ℕ := (P.filter fun b => v ⬝ᵥ co b < 0).card

abbrev Dom (g : ι → ℕ) (co : ℕ → Fin r → ℤ) (v : Fin r → ℤ) : Prop := ∀ i, 0 ≤ v ⬝ᵥ co (g i)

notation:max "actS" g:max ro:max co:max => act (fun i => ro (g i)) (fun i => co (g i))

theorem act_append {ro co : ι → Fin r → ℤ} (u w : List ι) (v : Fin r → ℤ) : act ro co (u ++ w) v = act ro co u (act ro co w v) := by
  induction u with
  | nil => rfl
  | cons s u ih => simp [act, ih]

theorem Sys.dom_pos (h : Sys P g ro co) {v : Fin r → ℤ} (hv : Dom g co v) {b : ℕ} (hb : b ∈ P) : 0 ≤ v ⬝ᵥ co b := by
  obtain ⟨l, hl⟩ := (h.pos b hb).2
  rw [hl]; clear hl
  induction l with
  | nil => simp
  | cons i l ih => rw [List.map_cons, List.sum_cons, dotProduct_add]; have := hv i; omega

theorem Sys.negs_eq_zero (h : Sys P g ro co) {v : Fin r → ℤ} : negs P co v = 0 ↔ Dom g co v := by
  unfold negs
  rw [Finset.card_eq_zero, Finset.filter_eq_empty_iff]
  constructor
  · intro hh i; have := hh (h.mem i); omega
  · intro hh b hb; have := h.dom_pos hh hb; omega

theorem refl_refl {a c : Fin r → ℤ} (h2 : a ⬝ᵥ c = 2) (v : Fin r → ℤ) : refl a c (refl a c v) = v := by
  funext i
  have := refl_dot a c v c
  simp only [refl, Pi.sub_apply, Pi.smul_apply, smul_eq_mul] at this ⊢
  rw [this, h2]; ring

theorem refl_conj {a c b d : Fin r → ℤ} (h2 : a ⬝ᵥ c = 2) (v : Fin r → ℤ) :
    refl a c (refl (refl a c b) (refl c a d) v) = refl b d (refl a c v) := by
  have e1 : v ⬝ᵥ refl c a d = refl a c v ⬝ᵥ d := by
    rw [dotProduct_comm, refl_dot, refl_dot, dotProduct_comm d v, dotProduct_comm d a, dotProduct_comm c v]; ring
  have key : refl a c (v - (v ⬝ᵥ refl c a d) • refl a c b) = refl a c v - (v ⬝ᵥ refl c a d) • refl a c (refl a c b) := by
    funext i
    simp only [refl, Pi.sub_apply, Pi.smul_apply, smul_eq_mul, sub_dotProduct, smul_dotProduct]
    ring
  rw [show refl (refl a c b) (refl c a d) v = v - (v ⬝ᵥ refl c a d) • refl a c b from rfl, key, refl_refl h2, e1]
  rfl

/-- the permutation of the other positive roots by a simple reflection -/
theorem Sys.invol (h : Sys P g ro co) (i : ι) : ∃ f : ℕ → ℕ, ∀ b ∈ P, b ≠ g i → f b ∈ P ∧ f b ≠ g i ∧ ro (f b) = refl (ro (g i)) (co (g i)) (ro b) ∧
    co (f b) = refl (co (g i)) (ro (g i)) (co b) ∧ f (f b) = b := by
  classical
  have hch : ∀ b, ∃ c, b ∈ P → b ≠ g i → c ∈ P ∧ c ≠ g i ∧ ro c = refl (ro (g i)) (co (g i)) (ro b) ∧ co c = refl (co (g i)) (ro (g i)) (co b) := by
    intro b
    by_cases hb : b ∈ P
    · by_cases hne : b = g i
      · exact ⟨0, fun _ h => absurd hne h⟩
      · obtain ⟨c, hc, hne', h1, h2⟩ := h.perm i b hb hne
        exact ⟨c, fun _ _ => ⟨hc, hne', h1, h2⟩⟩
    · exact ⟨0, fun h => absurd h hb⟩
  choose f hf using hch
  have h2 : ro (g i) ⬝ᵥ co (g i) = 2 := h.two _ (h.mem i)
  refine ⟨f, fun b hb hne => ?_⟩
  obtain ⟨h1, h3, h0, h4⟩ := hf b hb hne
  obtain ⟨h5, h6, -, h7⟩ := hf (f b) h1 h3
  refine ⟨h1, h3, h0, h4, h.inj _ h5 _ hb (Or.inr ?_)⟩
  rw [h7, h4, refl_refl (by rw [dotProduct_comm]; exact h2)]

/-- the sum of the positive roots takes the value 2 on simple coroots -/
theorem Sys.rho (h : Sys P g ro co) (i : ι) : (∑ b ∈ P, ro b) ⬝ᵥ co (g i) = 2 := by
  obtain ⟨f, hf⟩ := h.invol i
  rw [sum_dotProduct, ← Finset.insert_erase (h.mem i), Finset.sum_insert (by simp), h.two _ (h.mem i)]
  have : ∑ b ∈ P.erase (g i), ro b ⬝ᵥ co (g i) = ∑ b ∈ P.erase (g i), -(ro b ⬝ᵥ co (g i)) := by
    refine Finset.sum_nbij' f f ?_ ?_ ?_ ?_ ?_
    all_goals
      intro b hb
      rw [Finset.mem_erase] at hb
      obtain ⟨h1, h3, h0, h4, h5⟩ := hf b hb.2 hb.1
    · exact Finset.mem_erase.2 ⟨h3, h1⟩
    · exact Finset.mem_erase.2 ⟨h3, h1⟩
    · exact h5
    · exact h5
    · rw [h0, refl_dot, h.two _ (h.mem i)]; ring
  rw [Finset.sum_neg_distrib] at this
  omega

/-- outside of the simple root itself, the reflection does not change the count -/
theorem Sys.negs_erase (h : Sys P g ro co) (i : ι) (v : Fin r → ℤ) :
    ((P.erase (g i)).filter fun b => refl (ro (g i)) (co (g i)) v ⬝ᵥ co b < 0).card = ((P.erase (g i)).filter fun b => v ⬝ᵥ co b < 0).card := by
  obtain ⟨f, hf⟩ := h.invol i
  have hval : ∀ (u : Fin r → ℤ), ∀ b ∈ P, b ≠ g i → u ⬝ᵥ co (f b) = refl (ro (g i)) (co (g i)) u ⬝ᵥ co b := by
    intro u b hb hne
    rw [(hf b hb hne).2.2.2.1, dotProduct_comm, refl_dot, refl_dot, dotProduct_comm (co b) u, dotProduct_comm (co b), dotProduct_comm _ u]
    ring
  have h2 : ro (g i) ⬝ᵥ co (g i) = 2 := h.two _ (h.mem i)
  have hff : ∀ b ∈ P, b ≠ g i → f (f b) = b := fun b hb hne => (hf b hb hne).2.2.2.2
  refine Finset.card_nbij' f f ?_ ?_ ?_ ?_
  · intro b hb
    simp only [Finset.coe_filter, Finset.mem_erase, Set.mem_ofPred_eq] at hb ⊢
    refine ⟨⟨(hf b hb.1.2 hb.1.1).2.1, (hf b hb.1.2 hb.1.1).1⟩, ?_⟩
    rw [hval v b hb.1.2 hb.1.1]; exact hb.2
  · intro b hb
    simp only [Finset.coe_filter, Finset.mem_erase, Set.mem_ofPred_eq] at hb ⊢
    refine ⟨⟨(hf b hb.1.2 hb.1.1).2.1, (hf b hb.1.2 hb.1.1).1⟩, ?_⟩
    rw [hval _ b hb.1.2 hb.1.1, refl_refl h2]; exact hb.2
  · intro b hb
    simp only [Finset.coe_filter, Finset.mem_erase, Set.mem_ofPred_eq] at hb
    exact hff b hb.1.2 hb.1.1
  · intro b hb
    simp only [Finset.coe_filter, Finset.mem_erase, Set.mem_ofPred_eq] at hb
    exact hff b hb.1.2 hb.1.1

theorem Sys.negs_split (h : Sys P g ro co) (i : ι) (v : Fin r → ℤ) :
    negs P co v = ((P.erase (g i)).filter fun b => v ⬝ᵥ co b < 0).card + if v ⬝ᵥ co (g i) < 0 then 1 else 0 := by
  unfold negs
  conv_lhs => rw [← Finset.insert_erase (h.mem i)]
  rw [Finset.filter_insert]
  by_cases hv : v ⬝ᵥ co (g i) < 0
  · rw [if_pos hv, if_pos hv, Finset.card_insert_of_notMem (by simp)]
  · rw [if_neg hv, if_neg hv]; rfl

theorem Sys.refl_self (h : Sys P g ro co) (i : ι) (v : Fin r → ℤ) : refl (ro (g i)) (co (g i)) v ⬝ᵥ co (g i) = - (v ⬝ᵥ co (g i)) := by
  rw [refl_dot, h.two _ (h.mem i)]; ring

theorem Sys.negs_down (h : Sys P g ro co) {i : ι} {v : Fin r → ℤ} (hv : v ⬝ᵥ co (g i) < 0) :
    negs P co (refl (ro (g i)) (co (g i)) v) + 1 = negs P co v := by
  rw [h.negs_split i, h.negs_split i v, h.negs_erase, h.refl_self, if_pos hv, if_neg (by omega)]

theorem Sys.negs_up (h : Sys P g ro co) {i : ι} {v : Fin r → ℤ} (hv : 0 < v ⬝ᵥ co (g i)) :
    negs P co (refl (ro (g i)) (co (g i)) v) = negs P co v + 1 := by
  rw [h.negs_split i, h.negs_split i v, h.negs_erase, h.refl_self, if_pos (by omega), if_neg (by omega)]

theorem refl_fix {a c v : Fin r → ℤ} (h : v ⬝ᵥ c = 0) : refl a c v = v := by simp [refl, h]

theorem Sys.negs_le (h : Sys P g ro co) (i : ι) (v : Fin r → ℤ) : negs P co v ≤ negs P co (refl (ro (g i)) (co (g i)) v) + 1 := by
  rcases lt_trichotomy (v ⬝ᵥ co (g i)) 0 with hv | hv | hv
  · rw [h.negs_down hv]
  · rw [refl_fix hv]; omega
  · rw [h.negs_up hv]; omega

/-- a word that makes a weight dominant has at least as many letters as there are negative positive coroots -/
theorem Sys.negs_word (h : Sys P g ro co) (w : List ι) (v : Fin r → ℤ) : negs P co v ≤ negs P co (actS g ro co w v) + w.length := by
  induction w with
  | nil => simp [act]
  | cons s w ih =>
    have := h.negs_le s (actS g ro co w v)
    simp only [act, List.length_cons]
    omega

/-- moving a positive coroot through a word: either it stays positive, or the word meets the corresponding reflection -/
theorem Sys.through (h : Sys P g ro co) (w : List ι) : ∀ b ∈ P,
    (∃ b' ∈ P, ∀ v, actS g ro co w v ⬝ᵥ co b = v ⬝ᵥ co b') ∨
    ∃ w1 j w2, w = w1 ++ j :: w2 ∧ ∀ x, actS g ro co w1 (refl (ro (g j)) (co (g j)) x) = refl (ro b) (co b) (actS g ro co w1 x) := by
  induction w with
  | nil => intro b hb; exact Or.inl ⟨b, hb, fun v => rfl⟩
  | cons s w ih =>
    intro b hb
    by_cases hbs : b = g s
    · exact Or.inr ⟨[], s, w, rfl, fun x => by subst hbs; rfl⟩
    · have h2 : ro (g s) ⬝ᵥ co (g s) = 2 := h.two _ (h.mem s)
      obtain ⟨c, hc, -, h3, h4⟩ := h.perm s b hb hbs
      rcases ih c hc with ⟨b', hb', hv⟩ | ⟨w1, j, w2, rfl, hx⟩
      · refine Or.inl ⟨b', hb', fun v => ?_⟩
        rw [← hv v, h4, dotProduct_comm _ (refl _ _ _), refl_dot]
        simp only [act]
        rw [refl_dot, dotProduct_comm (co b), dotProduct_comm (co b), dotProduct_comm (co (g s))]
        ring
      · refine Or.inr ⟨s :: w1, j, w2, rfl, fun x => ?_⟩
        have := hx x
        simp only [act] at this ⊢
        rw [this, h3, h4, refl_conj h2]

/-- deletion -/
theorem Sys.delete (h : Sys P g ro co) {v : Fin r → ℤ} (hv : Dom g co v) {m : ι} {w : List ι} (hm : actS g ro co w v ⬝ᵥ co (g m) < 0) :
    ∃ w', w'.length + 2 = (m :: w).length ∧ ∀ x, actS g ro co w' x = actS g ro co (m :: w) x := by
  rcases h.through w (g m) (h.mem m) with ⟨b', hb', hh⟩ | ⟨w1, j, w2, rfl, hx⟩
  · have := hh v; have := h.dom_pos hv hb'; omega
  · refine ⟨w1 ++ w2, by simp; omega, fun x => ?_⟩
    have := hx (actS g ro co w2 x)
    simp only [act, act_append] at this ⊢
    rw [this, refl_refl (h.two _ (h.mem m))]

/-- A word between dominant weights acts like a word of reflections that fix the weight. -/
theorem Sys.dom_word (h : Sys P g ro co) {v : Fin r → ℤ} (hv : Dom g co v) : ∀ (k : ℕ) (w : List ι), w.length ≤ k → Dom g co (actS g ro co w v) →
    ∃ w' : List ι, (∀ x, actS g ro co w' x = actS g ro co w x) ∧ ∀ i ∈ w', v ⬝ᵥ co (g i) = 0 := by
  intro k
  induction k using Nat.strong_induction_on with
  | _ k IH =>
    intro w hk hw
    by_cases hdown : ∃ u m t, w = u ++ m :: t ∧ actS g ro co t v ⬝ᵥ co (g m) < 0
    · obtain ⟨u, m, t, rfl, hm⟩ := hdown
      obtain ⟨t', hl, ht'⟩ := h.delete hv hm
      have e : ∀ x, actS g ro co (u ++ t') x = actS g ro co (u ++ m :: t) x := fun x => by
        rw [act_append, act_append, ht']
      have hlen : (u ++ t').length < k := by simp at hl hk ⊢; omega
      obtain ⟨w', h1, h2⟩ := IH _ hlen (u ++ t') le_rfl (by rw [e]; exact hw)
      exact ⟨w', fun x => (h1 x).trans (e x), h2⟩
    · push Not at hdown
      refine ⟨w, fun _ => rfl, ?_⟩
      have hmono : ∀ u t, w = u ++ t → negs P co (actS g ro co t v) = 0 := by
        intro u
        induction u using List.reverseRecOn with
        | nil => intro t ht; rw [List.nil_append] at ht; rw [← ht]; exact h.negs_eq_zero.2 hw
        | append_singleton u m ih =>
          intro t ht
          have ht' : w = u ++ m :: t := by simpa using ht
          have h1 := ih (m :: t) ht'
          have h2 := hdown u m t ht'
          simp only [act] at h1
          rcases lt_or_eq_of_le h2 with h3 | h3
          · rw [h.negs_up h3] at h1; omega
          · rw [refl_fix h3.symm] at h1; exact h1
      have hfix : ∀ t u, w = u ++ t → actS g ro co t v = v ∧ ∀ i ∈ t, v ⬝ᵥ co (g i) = 0 := by
        intro t
        induction t with
        | nil => intro u _; exact ⟨rfl, by simp⟩
        | cons m t ih =>
          intro u hu
          obtain ⟨h1, h2⟩ := ih (u ++ [m]) (by simpa using hu)
          have h3 := hmono u (m :: t) hu
          have h4 := hdown u m t hu
          simp only [act] at h3
          rw [h1] at h3 h4
          have h5 : v ⬝ᵥ co (g m) = 0 := by
            rcases lt_or_eq_of_le h4 with h5 | h5
            · rw [h.negs_up h5] at h3; omega
            · exact h5.symm
          refine ⟨by simp only [act]; rw [h1, refl_fix h5], ?_⟩
          intro i hi
          rcases List.mem_cons.1 hi with rfl | hi
          · exact h5
          · exact h2 i hi
      exact (hfix w [] rfl).2

theorem act_fix {ro co : ι → Fin r → ℤ} {v : Fin r → ℤ} {w : List ι} (h : ∀ i ∈ w, v ⬝ᵥ co i = 0) : act ro co w v = v := by
  induction w with
  | nil => rfl
  | cons s w ih => rw [act, ih fun i hi => h i (List.mem_cons_of_mem _ hi), refl_fix (h s (by simp))]

theorem Sys.dom_unique (h : Sys P g ro co) {v : Fin r → ℤ} (hv : Dom g co v) {w : List ι} (hw : Dom g co (actS g ro co w v)) : actS g ro co w v = v := by
  obtain ⟨w', h1, h2⟩ := h.dom_word hv _ w le_rfl hw
  rw [← h1, act_fix h2]

theorem Sys.dom_regular (h : Sys P g ro co) {v : Fin r → ℤ} (hv : ∀ i, 0 < v ⬝ᵥ co (g i)) {w : List ι} (hw : Dom g co (actS g ro co w v)) (x : Fin r → ℤ) :
    actS g ro co w x = x := by
  obtain ⟨w', h1, h2⟩ := h.dom_word (fun i => (hv i).le) _ w le_rfl hw
  rw [← h1]
  cases w' with
  | nil => rfl
  | cons i t => have := h2 i (by simp); have := hv i; omega

theorem act_reverse {ro co : ι → Fin r → ℤ} (h2 : ∀ i, ro i ⬝ᵥ co i = 2) (w : List ι) (v : Fin r → ℤ) : act ro co w.reverse (act ro co w v) = v := by
  induction w with
  | nil => rfl
  | cons s w ih => rw [List.reverse_cons, act_append]; simp only [act]; rw [refl_refl (h2 s), ih]

end Verif.Datum
