import Verif.Dynkin.Scan
import Mathlib.Data.List.Pairwise

/-! The loop that forms the connected components of a diagram. -/

namespace Verif.Dynkin

variable {adj : ℕ → ℕ → Prop}

/-- a connected set of nodes -/
def Conn (adj : ℕ → ℕ → Prop) (s : List ℕ) : Prop := ∀ x ∈ s, From adj s x

/-- two sets of nodes have no node in common and no edge between them -/
def Apart (adj : ℕ → ℕ → Prop) (s t : List ℕ) : Prop :=
  (∀ x ∈ s, x ∉ t) ∧ ∀ x ∈ s, ∀ y ∈ t, ¬ adj x y

theorem Apart.symm {s t : List ℕ} (sym : ∀ a b, adj a b → adj b a) (h : Apart adj s t) :
    Apart adj t s :=
  ⟨fun x hx hx' => h.1 x hx' hx, fun x hx y hy hxy => h.2 y hy x hx (sym _ _ hxy)⟩

/-- `l` lists the connected components of the graph on the nodes less than `i` -/
structure IsComps (adj : ℕ → ℕ → Prop) (i : ℕ) (l : List (List ℕ)) : Prop where
  nodup : ∀ s ∈ l, s.Nodup
  nonempty : ∀ s ∈ l, s ≠ []
  cover : ∀ x, x < i ↔ ∃ s ∈ l, x ∈ s
  apart : l.Pairwise (Apart adj)
  conn : ∀ s ∈ l, Conn adj s

theorem mem_union {a b : List ℕ} {x : ℕ} : x ∈ union a b ↔ x < 32 ∧ (x ∈ a ∨ x ∈ b) := by
  simp [union]

theorem union_nodup (a b : List ℕ) : (union a b).Nodup := List.nodup_range.filter _

theorem meets_iff {a b : List ℕ} : meets a b = true ↔ ∃ x ∈ a, x ∈ b := by simp [meets]

theorem absorb_spec (star : List ℕ) : ∀ (l : List (List ℕ)) (sup : List ℕ), sup.Nodup →
    (∀ x ∈ sup, x < 32) → (∀ s ∈ l, ∀ x ∈ s, x < 32) →
    (absorb star sup l).2 = l.filter (fun s => !meets s star) ∧ (absorb star sup l).1.Nodup ∧
    ∀ x, x ∈ (absorb star sup l).1 ↔ x ∈ sup ∨ ∃ s ∈ l, meets s star = true ∧ x ∈ s := by
  intro l
  induction l with
  | nil => intro sup h _ _; exact ⟨rfl, h, by simp [absorb]⟩
  | cons s l ih =>
    intro sup h h1 h2
    rw [absorb]
    by_cases e : meets s star = true
    · rw [if_pos e]
      obtain ⟨a, b, c⟩ := ih (union sup s) (union_nodup _ _) (fun x hx => (mem_union.1 hx).1)
        (fun t ht => h2 t (by simp [ht]))
      refine ⟨by rw [a]; simp [e], b, ?_⟩
      intro x
      rw [c, mem_union]
      constructor
      · rintro (⟨_, h | h⟩ | ⟨t, ht, h⟩)
        · exact Or.inl h
        · exact Or.inr ⟨s, by simp, e, h⟩
        · exact Or.inr ⟨t, by simp [ht], h⟩
      · rintro (h | ⟨t, ht, h, h'⟩)
        · exact Or.inl ⟨h1 x h, Or.inl h⟩
        · rcases List.mem_cons.1 ht with e' | e'
          · subst e'; exact Or.inl ⟨h2 t (by simp) x h', Or.inr h'⟩
          · exact Or.inr ⟨t, e', h, h'⟩
    · rw [if_neg e]
      obtain ⟨a, b, c⟩ := ih sup h h1 (fun t ht => h2 t (by simp [ht]))
      refine ⟨by dsimp only; rw [a]; simp [e], b, ?_⟩
      intro x
      dsimp only
      rw [c]
      simp [e]

theorem attach_spec (nd : Bool) (star : List ℕ) (i : ℕ) (hi : i < 32) : ∀ (l : List (List ℕ)),
    (∀ s ∈ l, ∀ x ∈ s, x < 32) → (∃ s ∈ l, meets s star = true) →
    ∃ l' sup, attach nd star i l = .ok l' ∧
      l'.Perm (sup :: l.filter (fun s => !meets s star)) ∧ sup.Nodup ∧
      ∀ x, x ∈ sup ↔ x = i ∨ ∃ s ∈ l, meets s star = true ∧ x ∈ s := by
  intro l
  induction l with
  | nil => rintro _ ⟨s, h, -⟩; simp at h
  | cons s l ih =>
    intro h hm
    rw [attach]
    by_cases e : meets s star = true
    · rw [if_pos e]
      obtain ⟨a, b, c⟩ := absorb_spec star l (union s [i]) (union_nodup _ _)
        (fun x hx => (mem_union.1 hx).1) (fun t ht => h t (by simp [ht]))
      refine ⟨_, _, rfl, ?_, b, ?_⟩
      · rw [a]; simp [e]
      · intro x
        rw [c, mem_union]
        constructor
        · rintro (⟨_, h | h⟩ | ⟨t, ht, h⟩)
          · exact Or.inr ⟨s, by simp, e, h⟩
          · exact Or.inl (by simpa using h)
          · exact Or.inr ⟨t, by simp [ht], h⟩
        · rintro (h' | ⟨t, ht, h', h''⟩)
          · exact Or.inl ⟨h' ▸ hi, Or.inr (by simp [h'])⟩
          · rcases List.mem_cons.1 ht with e' | e'
            · subst e'; exact Or.inl ⟨h t (by simp) x h'', Or.inl h''⟩
            · exact Or.inr ⟨t, e', h', h''⟩
    · rw [if_neg e]
      obtain ⟨l', sup, a, b, c, d⟩ := ih (fun t ht => h t (by simp [ht])) (by
        obtain ⟨t, ht, h'⟩ := hm
        rcases List.mem_cons.1 ht with e' | e'
        · subst e'; exact absurd h' e
        · exact ⟨t, e', h'⟩)
      rw [a]
      refine ⟨_, sup, rfl, ?_, c, ?_⟩
      · refine (List.Perm.cons s b).trans ?_
        rw [List.filter_cons, if_pos (by simp [e])]
        exact List.Perm.swap _ _ _
      · intro x; rw [d]; simp [e]

/-- adding a node -/
theorem IsComps.add {i : ℕ} {l l' : List (List ℕ)} {star sup : List ℕ}
    (sym : ∀ a b, adj a b → adj b a) (irr : ∀ a, ¬ adj a a) (h : IsComps adj i l)
    (hstar : ∀ x, x ∈ star ↔ adj i x)
    (hp : l'.Perm (sup :: l.filter (fun s => !meets s star))) (hn : sup.Nodup)
    (hs : ∀ x, x ∈ sup ↔ x = i ∨ ∃ s ∈ l, meets s star = true ∧ x ∈ s) :
    IsComps adj (i + 1) l' := by
  have hpw : ∀ s ∈ l, ∀ t ∈ l, s ≠ t → Apart adj s t := by
    intro s hs' t ht hne
    have : Std.Symm (Apart adj) := ⟨fun a b => Apart.symm sym⟩
    exact h.apart.forall hs' ht hne
  have hsub : ∀ s ∈ l', s = sup ∨ (s ∈ l ∧ meets s star = false) := by
    intro s hs'
    have := hp.mem_iff.1 hs'
    simpa using this
  refine ⟨?_, ?_, ?_, ?_, ?_⟩
  · intro s hs'
    rcases hsub s hs' with e | e
    · subst e; exact hn
    · exact h.nodup s e.1
  · intro s hs'
    rcases hsub s hs' with e | e
    · intro e0
      have := (hs i).2 (Or.inl rfl)
      rw [← e, e0] at this; simp at this
    · exact h.nonempty s e.1
  · intro x
    constructor
    · intro hx
      by_cases e : x = i
      · exact ⟨sup, hp.mem_iff.2 (by simp), (hs x).2 (Or.inl e)⟩
      · obtain ⟨s, hs', hxs⟩ := (h.cover x).1 (by omega)
        by_cases em : meets s star = true
        · exact ⟨sup, hp.mem_iff.2 (by simp), (hs x).2 (Or.inr ⟨s, hs', em, hxs⟩)⟩
        · exact ⟨s, hp.mem_iff.2 (by simp [hs', em]), hxs⟩
    · rintro ⟨s, hs', hx⟩
      rcases hsub s hs' with e | e
      · subst e
        rcases (hs x).1 hx with e | ⟨t, ht, _, h'⟩
        · omega
        · have := (h.cover x).2 ⟨t, ht, h'⟩; omega
      · have := (h.cover x).2 ⟨s, e.1, hx⟩; omega
  · refine (hp.pairwise_iff (R := Apart adj) (fun h => Apart.symm sym h)).2 ?_
    rw [List.pairwise_cons]
    refine ⟨?_, h.apart.filter _⟩
    intro t ht
    simp at ht
    obtain ⟨ht, hm⟩ := ht
    have hm' : ∀ x ∈ t, x ∉ star := by
      intro x hx hx'
      have := meets_iff.2 ⟨x, hx, hx'⟩
      rw [hm] at this; cases this
    constructor
    · intro x hx hxt
      rcases (hs x).1 hx with e | ⟨s, hs', em, h'⟩
      · have := (h.cover x).2 ⟨t, ht, hxt⟩; omega
      · refine (hpw s hs' t ht ?_).1 x h' hxt
        intro e; subst e; rw [hm] at em; cases em
    · intro x hx y hy hxy
      rcases (hs x).1 hx with e | ⟨s, hs', em, h'⟩
      · subst e
        exact hm' y hy ((hstar y).2 hxy)
      · refine (hpw s hs' t ht ?_).2 x h' y hy hxy
        intro e; subst e; rw [hm] at em; cases em
  · intro s hs'
    rcases hsub s hs' with e | e
    · subst e
      intro x hx T hT hcl
      have hmem : ∀ t ∈ l, meets t star = true → ∀ z ∈ t, z ∈ s := fun t ht hm z hz =>
        (hs z).2 (Or.inr ⟨t, ht, hm, hz⟩)
      have hall : ∀ t ∈ l, meets t star = true → ∀ z ∈ t, T z → ∀ y ∈ t, T y := by
        intro t ht hm z hz hTz
        exact h.conn t ht z hz T hTz (fun a ha hTa b hb hab =>
          hcl a (hmem t ht hm a ha) hTa b (hmem t ht hm b hb) hab)
      have hi : i ∈ s := (hs i).2 (Or.inl rfl)
      have hTi : T i := by
        rcases (hs x).1 hx with e | ⟨t, ht, hm, hxt⟩
        · subst e; exact hT
        · obtain ⟨y, hy, hy'⟩ := meets_iff.1 hm
          have hTy := hall t ht hm x hxt hT y hy
          exact hcl y (hmem t ht hm y hy) hTy i hi (sym _ _ ((hstar y).1 hy'))
      intro y hy
      rcases (hs y).1 hy with e | ⟨t, ht, hm, hyt⟩
      · subst e; exact hTi
      · obtain ⟨z, hz, hz'⟩ := meets_iff.1 hm
        exact hall t ht hm z hz (hcl i hi hTi z (hmem t ht hm z hz) ((hstar z).1 hz')) y hyt
    · exact h.conn s e.1

theorem addNode_spec (nd : Bool) {i : ℕ} {l : List (List ℕ)} {star : List ℕ} (hi : i < 32)
    (sym : ∀ a b, adj a b → adj b a) (irr : ∀ a, ¬ adj a a) (h : IsComps adj i l)
    (hstar : ∀ x, x ∈ star ↔ adj i x) :
    ∃ l', addNode nd star i l = .ok l' ∧ IsComps adj (i + 1) l' := by
  have h32 : ∀ s ∈ l, ∀ x ∈ s, x < 32 := fun s hs x hx => by
    have := (h.cover x).2 ⟨s, hs, hx⟩; omega
  unfold addNode
  by_cases e : (star.filter (fun x => decide (x < i))).isEmpty = true
  · rw [if_pos e]
    rw [List.isEmpty_iff] at e
    have hno : ∀ s ∈ l, meets s star = false := by
      intro s hs
      rw [Bool.eq_false_iff]
      intro hm
      obtain ⟨x, hx, hx'⟩ := meets_iff.1 hm
      have : x ∈ star.filter (fun x => decide (x < i)) := by
        rw [List.mem_filter]
        exact ⟨hx', by simpa using (h.cover x).2 ⟨s, hs, hx⟩⟩
      rw [e] at this; simp at this
    refine ⟨_, rfl, h.add sym irr hstar (sup := [i]) ?_ (by simp) ?_⟩
    · rw [List.filter_eq_self.2 (fun s hs => by simp [hno s hs])]
      exact List.perm_append_comm
    · intro x
      constructor
      · intro h; exact Or.inl (by simpa using h)
      · rintro (h | ⟨s, hs, hm, -⟩)
        · simp [h]
        · rw [hno s hs] at hm; cases hm
  · rw [if_neg e]
    have hm : ∃ s ∈ l, meets s star = true := by
      rw [List.isEmpty_iff] at e
      obtain ⟨x, hx⟩ := List.exists_mem_of_ne_nil _ e
      rw [List.mem_filter] at hx
      obtain ⟨s, hs, hxs⟩ := (h.cover x).1 (by simpa using hx.2)
      exact ⟨s, hs, meets_iff.2 ⟨x, hxs, hx.1⟩⟩
    rw [Res.assertIn_bind nd (by
      obtain ⟨s, hs, _⟩ := hm
      cases l with
      | nil => simp at hs
      | cons a l => rfl)]
    obtain ⟨l', sup, a, b, c, d⟩ := attach_spec nd star i hi l h32 hm
    exact ⟨l', a, h.add sym irr hstar b c d⟩

theorem components_spec (nd : Bool) (d : Diagram) (sym : ∀ a b, adj a b → adj b a)
    (irr : ∀ a, ¬ adj a a) (hstar : ∀ x y, y ∈ d.nbrs x ↔ adj x y) :
    ∀ (k i : ℕ) (l : List (List ℕ)), i + k ≤ 32 → IsComps adj i l →
    ∃ l', components nd d (List.range' i k) l = .ok l' ∧ IsComps adj (i + k) l' := by
  intro k
  induction k with
  | zero => intro i l _ h; exact ⟨l, rfl, h⟩
  | succ k ih =>
    intro i l hk h
    obtain ⟨l1, a1, a2⟩ := addNode_spec nd (by omega) sym irr h (hstar i)
    obtain ⟨l2, b1, b2⟩ := ih (i + 1) l1 (by omega) a2
    refine ⟨l2, ?_, by rwa [show i + (k + 1) = i + 1 + k by omega]⟩
    rw [List.range'_succ, components, a1, Res.ok_bind, b1]

theorem components_ok (nd : Bool) (d : Diagram) (sym : ∀ a b, adj a b → adj b a)
    (irr : ∀ a, ¬ adj a a) (hstar : ∀ x y, y ∈ d.nbrs x ↔ adj x y) {n : ℕ} (hn : n ≤ 32) :
    ∃ l, components nd d (List.range n) [] = .ok l ∧ IsComps adj n l := by
  have := components_spec nd d sym irr hstar n 0 [] (by omega)
    ⟨by simp, by simp, by simp, by simp, by simp⟩
  rw [← List.range_eq_range'] at this
  simpa using this

end Verif.Dynkin
