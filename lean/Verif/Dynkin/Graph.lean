import Verif.Dynkin.Model
import Mathlib.Data.List.Perm.Basic
import Mathlib.Data.List.Nodup

/-! Paths in graphs, and the traversal of a diagram. -/

namespace Verif.Dynkin

variable {adj : ℕ → ℕ → Prop}

/-- every set that contains `x` and is closed under adjacency in `R` contains `R` -/
def From (adj : ℕ → ℕ → Prop) (R : List ℕ) (x : ℕ) : Prop :=
  ∀ T : ℕ → Prop, T x → (∀ y ∈ R, T y → ∀ z ∈ R, adj y z → T z) → ∀ y ∈ R, T y

/-- at most one neighbour in `R` -/
def Le1 (adj : ℕ → ℕ → Prop) (R : List ℕ) (x : ℕ) : Prop :=
  ∀ y ∈ R, ∀ z ∈ R, adj x y → adj x z → y = z

/-- at most two neighbours in `R` -/
def Le2 (adj : ℕ → ℕ → Prop) (R : List ℕ) (x : ℕ) : Prop :=
  ∀ y ∈ R, ∀ z ∈ R, ∀ w ∈ R, adj x y → adj x z → adj x w → y = z ∨ y = w ∨ z = w

/-- a list of nodes adjacent exactly if they are consecutive -/
def IsPath (adj : ℕ → ℕ → Prop) : List ℕ → Prop
  | [] => True
  | [_] => True
  | x :: y :: l => adj x y ∧ (∀ z ∈ l, ¬ adj x z) ∧ IsPath adj (y :: l)

theorem mem_inter {a b : List ℕ} {x : ℕ} : x ∈ inter a b ↔ x ∈ a ∧ x ∈ b := by simp [inter]
theorem mem_diff {a b : List ℕ} {x : ℕ} : x ∈ diff a b ↔ x ∈ a ∧ x ∉ b := by simp [diff]

theorem diff_length {R : List ℕ} (hR : R.Nodup) {x : ℕ} (hx : x ∈ R) :
    (diff R [x]).length + 1 = R.length := by
  have : diff R [x] = R.erase x := by
    rw [hR.erase_eq_filter, diff]
    congr 1; funext y; by_cases e : y = x <;> simp [e]
  rw [this, List.length_erase_of_mem hx]
  have := List.length_pos_of_mem hx
  omega

theorem diff_perm {R : List ℕ} (hR : R.Nodup) {x : ℕ} (hx : x ∈ R) :
    (x :: diff R [x]).Perm R := by
  have : diff R [x] = R.erase x := by
    rw [hR.erase_eq_filter, diff]
    congr 1; funext y; by_cases e : y = x <;> simp [e]
  rw [this]; exact (List.perm_cons_erase hx).symm

theorem diff_nodup {R S : List ℕ} (hR : R.Nodup) : (diff R S).Nodup := hR.filter _

/-- the conditions pass to the rest after one step of a traversal -/
theorem step {R : List ℕ} {x s : ℕ} (sym : ∀ a b, adj a b → adj b a) (irr : ∀ a, ¬ adj a a)
    (hx : x ∈ R) (h1 : Le1 adj R x) (hc : From adj R x) (hs : s ∈ R) (ha : adj x s) :
    (∀ y ∈ diff R [x], Le2 adj R y → adj x y → Le1 adj (diff R [x]) y) ∧
    From adj (diff R [x]) s := by
  constructor
  · intro y hy h2 hxy a ha' c hc' hya hyc
    rw [mem_diff] at ha' hc' hy
    rcases h2 x hx a ha'.1 c hc'.1 (sym _ _ hxy) hya hyc with e | e | e
    · subst e; simp at ha'
    · subst e; simp at hc'
    · exact e
  · intro T hT hcl y hy
    have := hc (fun z => z = x ∨ T z) (Or.inl rfl) ?_ y (mem_diff.1 hy).1
    · rcases this with e | e
      · subst e; simp [mem_diff] at hy
      · exact e
    · intro a haR ha' z hz haz
      by_cases ez : z = x
      · exact Or.inl ez
      right
      rcases ha' with e | e
      · subst e
        rw [h1 z hz s hs haz ha]; exact hT
      · by_cases ea : a = x
        · subst ea; rw [h1 z hz s hs haz ha]; exact hT
        · exact hcl a (mem_diff.2 ⟨haR, by simpa using ea⟩) e z (mem_diff.2 ⟨hz, by simpa using ez⟩)
            haz

/-- a step is possible until nothing remains -/
theorem next {R : List ℕ} {x : ℕ} (hc : From adj R x) (h : ∀ y ∈ diff R [x], ¬ adj x y) :
    diff R [x] = [] := by
  rw [List.eq_nil_iff_forall_not_mem]
  intro y hy
  have := hc (fun z => z = x) rfl ?_ y (mem_diff.1 hy).1
  · subst this; simp [mem_diff] at hy
  · intro a _ e z hz haz
    subst e
    by_contra hne
    exact h z (mem_diff.2 ⟨hz, by simpa using hne⟩) haz

theorem walk_succ (nd : Bool) (d : Diagram) (ty : Weyl.Ty) (fork : Option ℕ) (fuel x : ℕ)
    (R pos : List ℕ) :
    walk nd d ty fork (fuel + 1) x R pos =
      if (diff R [x]).isEmpty then .ok (pos ++ [x])
      else
        match inter (d.nbrs x) (diff R [x]) with
        | s :: _ => walk nd d ty fork fuel s (diff R [x]) (pos ++ [x])
        | [] =>
          if ty = .D then
            match fork with
            | none => .undefined
            | some f => do
              Res.assertIn nd (diff (diff R [x]) (d.nbrs f)).isEmpty
              let s ← firstBit (diff R [x])
              walk nd d ty fork fuel s (diff R [x]) (pos ++ [x])
          else if nd then .outOfFuel else .assertFail := rfl

/-- traversal of a path -/
theorem walk_path (nd : Bool) (d : Diagram) (ty : Weyl.Ty) (fork : Option ℕ)
    (sym : ∀ a b, adj a b → adj b a) (irr : ∀ a, ¬ adj a a)
    (hn : ∀ x y, y ∈ d.nbrs x ↔ adj x y) :
    ∀ (fuel : ℕ) (R : List ℕ) (x : ℕ) (pos : List ℕ), R.Nodup → R.length ≤ fuel → x ∈ R →
      Le1 adj R x → (∀ y ∈ R, Le2 adj R y) → From adj R x →
      ∃ w, walk nd d ty fork fuel x R pos = .ok (pos ++ x :: w) ∧ (x :: w).Perm R ∧
        IsPath adj (x :: w) := by
  intro fuel
  induction fuel with
  | zero => intro R x pos _ hl hx; have := List.length_pos_of_mem hx; omega
  | succ fuel ih =>
    intro R x pos hR hl hx h1 h2 hc
    rw [walk_succ]
    have hp := diff_perm hR hx
    by_cases he : (diff R [x]).isEmpty = true
    · rw [if_pos he]
      rw [List.isEmpty_iff] at he
      rw [he] at hp
      exact ⟨[], rfl, hp, trivial⟩
    · rw [if_neg he]
      cases hi : inter (d.nbrs x) (diff R [x]) with
      | nil =>
        exfalso; apply he
        rw [List.isEmpty_iff]
        apply next hc
        intro y hy hxy
        have : y ∈ inter (d.nbrs x) (diff R [x]) := mem_inter.2 ⟨(hn x y).2 hxy, hy⟩
        rw [hi] at this; simp at this
      | cons s l =>
        have hs : s ∈ inter (d.nbrs x) (diff R [x]) := by rw [hi]; simp
        rw [mem_inter, hn] at hs
        have hsR := (mem_diff.1 hs.2).1
        obtain ⟨g1, g2⟩ := step sym irr hx h1 hc hsR hs.1
        dsimp only
        obtain ⟨w, k1, k2, k3⟩ := ih (diff R [x]) s (pos ++ [x]) (diff_nodup hR)
          (by have := diff_length hR hx; omega) hs.2 (g1 s hs.2 (h2 s hsR) hs.1)
          (fun y hy a ha b hb c hc' => h2 y (mem_diff.1 hy).1 a (mem_diff.1 ha).1 b (mem_diff.1 hb).1
            c (mem_diff.1 hc').1) g2
        refine ⟨s :: w, by rw [k1]; simp, (List.Perm.cons x k2).trans hp, hs.1, ?_, k3⟩
        intro z hz hxz
        have hzR : z ∈ diff R [x] := k2.subset (by simp [hz])
        have e := h1 z (mem_diff.1 hzR).1 s hsR hxz hs.1
        subst e
        have := k2.nodup_iff.2 (diff_nodup hR)
        simp at this
        exact this.1 hz

/-- the same as a fact about graphs -/
theorem exists_path (sym : ∀ a b, adj a b → adj b a) (irr : ∀ a, ¬ adj a a)
    {R : List ℕ} {x : ℕ} (hR : R.Nodup) (hx : x ∈ R) (h1 : Le1 adj R x)
    (h2 : ∀ y ∈ R, Le2 adj R y) (hc : From adj R x) :
    ∃ w, (x :: w).Perm R ∧ IsPath adj (x :: w) := by
  have key : ∀ (n : ℕ) (R : List ℕ) (x : ℕ), R.Nodup → R.length ≤ n → x ∈ R →
      Le1 adj R x → (∀ y ∈ R, Le2 adj R y) → From adj R x →
      ∃ w, (x :: w).Perm R ∧ IsPath adj (x :: w) := by
    intro n
    induction n with
    | zero => intro R x _ hl hx; have := List.length_pos_of_mem hx; omega
    | succ n ih =>
      intro R x hR hl hx h1 h2 hc
      have hp := diff_perm hR hx
      by_cases he : ∃ s ∈ diff R [x], adj x s
      · obtain ⟨s, hs2, hs1⟩ := he
        have hsR := (mem_diff.1 hs2).1
        obtain ⟨g1, g2⟩ := step sym irr hx h1 hc hsR hs1
        obtain ⟨w, k2, k3⟩ := ih (diff R [x]) s (diff_nodup hR)
          (by have := diff_length hR hx; omega) hs2 (g1 s hs2 (h2 s hsR) hs1)
          (fun y hy a ha b hb c hc' => h2 y (mem_diff.1 hy).1 a (mem_diff.1 ha).1 b (mem_diff.1 hb).1
            c (mem_diff.1 hc').1) g2
        refine ⟨s :: w, (List.Perm.cons x k2).trans hp, hs1, ?_, k3⟩
        intro z hz hxz
        have hzR : z ∈ diff R [x] := k2.subset (by simp [hz])
        have e := h1 z (mem_diff.1 hzR).1 s hsR hxz hs1
        subst e
        have := k2.nodup_iff.2 (diff_nodup hR)
        simp at this
        exact this.1 hz
      · push Not at he
        rw [next hc he] at hp
        exact ⟨[], hp, trivial⟩
  exact key R.length R x hR (Nat.le_refl _) hx h1 h2 hc

theorem IsPath.adj_lt : ∀ {w : List ℕ}, IsPath adj w → ∀ {i j a c : ℕ}, i < j → w[i]? = some a →
    w[j]? = some c → (adj a c ↔ j = i + 1) := by
  intro w
  induction w with
  | nil => intro _ i j a c _ h; simp at h
  | cons x w ih =>
    intro h i j a c hij hi hj
    cases w with
    | nil =>
      cases j with
      | zero => omega
      | succ j => simp at hj
    | cons y l =>
      obtain ⟨h1, h2, h3⟩ := h
      cases j with
      | zero => omega
      | succ j =>
        rw [List.getElem?_cons_succ] at hj
        cases i with
        | zero =>
          simp at hi; subst hi
          cases j with
          | zero => simp at hj; subst hj; simp [h1]
          | succ j =>
            rw [List.getElem?_cons_succ] at hj
            have := h2 c (List.mem_of_getElem? hj)
            constructor
            · intro h; exact absurd h this
            · intro h; omega
        | succ i =>
          rw [List.getElem?_cons_succ] at hi
          rw [ih h3 (by omega) hi hj]; omega

theorem IsPath.adj_iff {w : List ℕ} (h : IsPath adj w) (sym : ∀ a b, adj a b → adj b a)
    (irr : ∀ a, ¬ adj a a) {i j a c : ℕ} (hi : w[i]? = some a) (hj : w[j]? = some c) :
    adj a c ↔ j = i + 1 ∨ i = j + 1 := by
  rcases Nat.lt_trichotomy i j with e | e | e
  · rw [h.adj_lt e hi hj]; omega
  · subst e
    rw [hi] at hj; cases hj
    constructor
    · intro h; exact absurd h (irr a)
    · omega
  · rw [show adj a c ↔ adj c a from ⟨sym _ _, sym _ _⟩, h.adj_lt e hj hi]; omega

/-- the last node of a path has at most one neighbour -/
theorem IsPath.last {w : List ℕ} (h : IsPath adj w) (sym : ∀ a b, adj a b → adj b a)
    (irr : ∀ a, ¬ adj a a) (hw : w ≠ []) :
    ∃ z, w[w.length - 1]? = some z ∧ Le1 adj w z := by
  have hl := List.length_pos_iff.2 hw
  obtain ⟨z, hz⟩ : ∃ z, w[w.length - 1]? = some z := ⟨_, List.getElem?_eq_getElem (by omega)⟩
  refine ⟨z, hz, ?_⟩
  intro a ha c hc hza hzc
  obtain ⟨i, hi⟩ := List.mem_iff_getElem?.1 ha
  obtain ⟨j, hj⟩ := List.mem_iff_getElem?.1 hc
  rw [h.adj_iff sym irr hz hi] at hza
  rw [h.adj_iff sym irr hz hj] at hzc
  have h1 : i < w.length := by
    by_contra hh; rw [List.getElem?_eq_none (by omega)] at hi; cases hi
  have h2 : j < w.length := by
    by_contra hh; rw [List.getElem?_eq_none (by omega)] at hj; cases hj
  have : i = j := by omega
  subst this
  rw [hi] at hj; exact Option.some.inj hj

/-- a node of a path other than its ends has two neighbours -/
theorem IsPath.inner {w : List ℕ} (h : IsPath adj w) (sym : ∀ a b, adj a b → adj b a)
    (irr : ∀ a, ¬ adj a a) (hw : w.Nodup) {i a : ℕ} (hi : w[i]? = some a) (h0 : 0 < i)
    (h1 : i + 1 < w.length) : ¬ Le1 adj w a := by
  intro hle
  obtain ⟨b, hb⟩ : ∃ b, w[i - 1]? = some b := ⟨_, List.getElem?_eq_getElem (by omega)⟩
  obtain ⟨c, hc⟩ : ∃ c, w[i + 1]? = some c := ⟨_, List.getElem?_eq_getElem (by omega)⟩
  have := hle b (List.mem_of_getElem? hb) c (List.mem_of_getElem? hc)
    ((h.adj_iff sym irr hi hb).2 (by omega)) ((h.adj_iff sym irr hi hc).2 (by omega))
  subst this
  have := (List.getElem?_inj (by omega) hw).1 (hb.trans hc.symm)
  omega

/-- a path that ends in a fork: the last three nodes are `f`, `e1`, `e2` with `f` adjacent to both -/
def IsFork (adj : ℕ → ℕ → Prop) : List ℕ → Prop
  | x :: y :: z :: l =>
    match l with
    | [] => adj x y ∧ adj x z ∧ ¬ adj y z
    | _ => adj x y ∧ (∀ u ∈ z :: l, ¬ adj x u) ∧ IsFork adj (y :: z :: l)
  | _ => False

theorem IsFork.cons {x y z u : ℕ} {l : List ℕ} (h : IsFork adj (y :: z :: u :: l)) (h1 : adj x y)
    (h2 : ∀ v ∈ z :: u :: l, ¬ adj x v) : IsFork adj (x :: y :: z :: u :: l) := ⟨h1, h2, h⟩

theorem IsFork.adj_lt : ∀ {w : List ℕ}, IsFork adj w → ∀ {i j a c : ℕ}, i < j → w[i]? = some a →
    w[j]? = some c → (adj a c ↔ (j + 1 < w.length ∧ j = i + 1) ∨ (j + 1 = w.length ∧ j = i + 2)) := by
  intro w
  induction w with
  | nil => intro h; exact absurd h (by simp [IsFork])
  | cons x w ih =>
    intro h i j a c hij hi hj
    match w, h with
    | [y, z], ⟨h1, h2, h3⟩ =>
      have hj3 : j < 3 := by
        by_contra hh; rw [List.getElem?_eq_none (by simp; omega)] at hj; cases hj
      have : (i = 0 ∧ j = 1) ∨ (i = 0 ∧ j = 2) ∨ (i = 1 ∧ j = 2) := by omega
      rcases this with ⟨rfl, rfl⟩ | ⟨rfl, rfl⟩ | ⟨rfl, rfl⟩ <;> simp at hi hj <;> subst hi hj <;>
        simp [h1, h2, h3]
    | y :: z :: u :: l, ⟨h1, h2, h3⟩ =>
      cases j with
      | zero => omega
      | succ j =>
        rw [List.getElem?_cons_succ] at hj
        have hl : j < (y :: z :: u :: l).length := by
          by_contra hh; rw [List.getElem?_eq_none (by omega)] at hj; cases hj
        cases i with
        | zero =>
          simp at hi; subst hi
          cases j with
          | zero => simp at hj; subst hj; simp [h1]
          | succ j =>
            rw [List.getElem?_cons_succ] at hj
            have := h2 c (List.mem_of_getElem? hj)
            constructor
            · intro h; exact absurd h this
            · simp only [List.length_cons] at hl ⊢; omega
        | succ i =>
          rw [List.getElem?_cons_succ] at hi
          rw [ih h3 (by omega) hi hj]
          simp only [List.length_cons] at hl ⊢; omega

/-- traversal of a diagram of type D -/
theorem walk_fork (nd : Bool) (d : Diagram) {f : ℕ}
    (sym : ∀ a b, adj a b → adj b a) (irr : ∀ a, ¬ adj a a)
    (hn : ∀ x y, y ∈ d.nbrs x ↔ adj x y) (hnd : (d.nbrs f).Nodup) :
    ∀ (fuel : ℕ) (R : List ℕ) (x : ℕ) (pos : List ℕ), R.Nodup → R.length ≤ fuel → x ∈ R →
      f ∈ R → x ≠ f → Le1 adj R x → (∀ y ∈ R, y ≠ f → Le2 adj R y) →
      (∃ p e1 e2, p ∈ R ∧ e1 ∈ R ∧ e2 ∈ R ∧ e1 ≠ e2 ∧ e1 ≠ p ∧ e2 ≠ p ∧ x ≠ e1 ∧ x ≠ e2 ∧
        (∀ y, adj f y ↔ y = p ∨ y = e1 ∨ y = e2) ∧ (∀ y, adj e1 y → y = f) ∧
        (∀ y, adj e2 y → y = f)) → From adj R x →
      ∃ w, walk nd d .D (some f) fuel x R pos = .ok (pos ++ x :: w) ∧ (x :: w).Perm R ∧
        IsFork adj (x :: w) := by
  intro fuel
  induction fuel with
  | zero => intro R x pos _ hl hx; have := List.length_pos_of_mem hx; omega
  | succ fuel ih =>
    intro R x pos hR hl hx hf hxf h1 h2 hex hc
    obtain ⟨p, e1, e2, hp, he1, he2, h12, h1p, h2p, hx1, hx2, hff, hE1, hE2⟩ := hex
    have hperm := diff_perm hR hx
    have hfR : f ∈ diff R [x] := mem_diff.2 ⟨hf, by simpa using Ne.symm hxf⟩
    rw [walk_succ]
    rw [if_neg (by rw [List.isEmpty_iff]; intro e; rw [e] at hfR; simp at hfR)]
    cases hi : inter (d.nbrs x) (diff R [x]) with
    | nil =>
      exfalso
      have : diff R [x] = [] := by
        apply next hc
        intro y hy hxy
        have : y ∈ inter (d.nbrs x) (diff R [x]) := mem_inter.2 ⟨(hn x y).2 hxy, hy⟩
        rw [hi] at this; simp at this
      rw [this] at hfR; simp at hfR
    | cons s l =>
      have hs : s ∈ inter (d.nbrs x) (diff R [x]) := by rw [hi]; simp
      rw [mem_inter, hn] at hs
      have hsR := (mem_diff.1 hs.2).1
      obtain ⟨g1, g2⟩ := step sym irr hx h1 hc hsR hs.1
      have hnx : ∀ z ∈ diff R [x], adj x z → z = s := fun z hz hxz =>
        h1 z (mem_diff.1 hz).1 s hsR hxz hs.1
      have hlen := diff_length hR hx
      have hnd' := diff_nodup (S := [x]) hR
      dsimp only
      by_cases hsf : s = f
      · -- the fork is reached
        subst hsf
        have hxp : x = p := by
          rcases (hff x).1 (sym _ _ hs.1) with e | e | e
          · exact e
          · exact absurd e hx1
          · exact absurd e hx2
        subst hxp
        have me1 : e1 ∈ diff (diff R [x]) [s] := mem_diff.2 ⟨mem_diff.2 ⟨he1, by simpa using h1p⟩, by
          have := (hff e1).2 (by simp)
          simp; intro e; rw [e] at this; exact irr _ this⟩
        have me2 : e2 ∈ diff (diff R [x]) [s] := mem_diff.2 ⟨mem_diff.2 ⟨he2, by simpa using h2p⟩, by
          have := (hff e2).2 (by simp)
          simp; intro e; rw [e] at this; exact irr _ this⟩
        have hall : ∀ y ∈ diff (diff R [x]) [s], y = e1 ∨ y = e2 := by
          intro y hy
          have := g2 (fun z => z = s ∨ z = e1 ∨ z = e2) (Or.inl rfl) ?_ y (mem_diff.1 hy).1
          · rcases this with e | e
            · subst e; simp [mem_diff] at hy
            · exact e
          · intro a _ ha z hz haz
            rcases ha with e | e | e
            · subst e
              rcases (hff z).1 haz with e | e | e
              · subst e; simp [mem_diff] at hz
              · exact Or.inr (Or.inl e)
              · exact Or.inr (Or.inr e)
            · subst e; exact Or.inl (hE1 z haz)
            · subst e; exact Or.inl (hE2 z haz)
        have hlen2 : (diff (diff R [x]) [s]).length = 2 := by
          have hs1 : (diff (diff R [x]) [s]).Perm [e1, e2] := by
            apply (List.perm_ext_iff_of_nodup (diff_nodup hnd') (by simp [h12])).2
            intro y
            constructor
            · intro hy; simpa using hall y hy
            · intro hy
              simp at hy
              rcases hy with e | e <;> subst e <;> assumption
          rw [hs1.length_eq]; rfl
        have hl2 := diff_length hnd' hfR
        obtain ⟨fuel, rfl⟩ : ∃ k, fuel = k + 3 := ⟨fuel - 3, by omega⟩
        rw [walk_succ]
        rw [if_neg (by rw [List.isEmpty_iff]; intro e; rw [e] at me1; simp at me1)]
        cases hi2 : inter (d.nbrs s) (diff (diff R [x]) [s]) with
        | nil =>
          exfalso
          have : e1 ∈ inter (d.nbrs s) (diff (diff R [x]) [s]) :=
            mem_inter.2 ⟨(hn s e1).2 ((hff e1).2 (by simp)), me1⟩
          rw [hi2] at this; simp at this
        | cons t l2 =>
          have ht : t ∈ inter (d.nbrs s) (diff (diff R [x]) [s]) := by rw [hi2]; simp
          rw [mem_inter, hn] at ht
          dsimp only
          -- `t` is one of the ends, `u` the other
          obtain ⟨u, hu, htu, hset, hEt, hEu⟩ : ∃ u, u ∈ diff (diff R [x]) [s] ∧ t ≠ u ∧
              (∀ y ∈ diff (diff R [x]) [s], y = t ∨ y = u) ∧ (∀ y, adj t y → y = s) ∧
              (∀ y, adj u y → y = s) := by
            rcases hall t ht.2 with e | e
            · subst e; exact ⟨e2, me2, h12, hall, hE1, hE2⟩
            · subst e; exact ⟨e1, me1, Ne.symm h12, fun y hy => (hall y hy).symm, hE2, hE1⟩
          have hrest : diff (diff (diff R [x]) [s]) [t] = [u] := by
            have hlen3 := diff_length (diff_nodup (S := [s]) hnd') ht.2
            have hu' : u ∈ diff (diff (diff R [x]) [s]) [t] := mem_diff.2 ⟨hu, by
              simpa using Ne.symm htu⟩
            obtain ⟨v, hv⟩ := List.length_eq_one_iff.1 (show (diff (diff (diff R [x]) [s]) [t]).length = 1 by omega)
            rw [hv] at hu' ⊢
            simp at hu'; rw [hu']
          rw [walk_succ]
          rw [hrest, if_neg (by simp)]
          have hemp : inter (d.nbrs t) [u] = [] := by
            rw [List.eq_nil_iff_forall_not_mem]
            intro y hy
            rw [mem_inter, hn] at hy
            have e1' := hEt y hy.1
            have e2' : y = u := by simpa using hy.2
            rw [← e2', e1'] at hu
            simp [mem_diff] at hu
          rw [hemp]
          dsimp only
          rw [if_pos rfl]
          have hsu : adj s u := by
            rw [hff]
            rcases hall u hu with e | e
            · exact Or.inr (Or.inl e)
            · exact Or.inr (Or.inr e)
          have hdz : diff [u] (d.nbrs s) = [] := by
            rw [List.eq_nil_iff_forall_not_mem]
            intro y hy
            rw [mem_diff] at hy
            have e : y = u := by simpa using hy.1
            subst e
            exact hy.2 ((hn s y).2 hsu)
          rw [hdz, List.isEmpty_nil, Res.assertIn_bind nd rfl]
          show ∃ w, (firstBit [u] >>= fun s' => _) = _ ∧ _
          rw [firstBit, Res.ok_bind, walk_succ]
          have hd : diff [u] [u] = [] := by simp [diff]
          rw [hd]
          refine ⟨[s, t, u], by simp, ?_, ?_⟩
          · refine List.Perm.trans ?_ hperm
            refine List.Perm.cons x ?_
            refine List.Perm.trans ?_ (diff_perm hnd' hfR)
            refine List.Perm.cons s ?_
            have := diff_perm (diff_nodup (S := [s]) hnd') ht.2
            rw [hrest] at this
            exact this
          · refine ⟨hs.1, ?_, ht.1, hsu, ?_⟩
            · intro z hz hxz
              have hzm : z ∈ diff (diff R [x]) [s] := by
                simp at hz
                rcases hz with e | e
                · subst e; exact ht.2
                · subst e; exact hu
              have := hnx z (mem_diff.1 hzm).1 hxz
              subst this
              simp [mem_diff] at hzm
            · intro h
              have := hEt u h
              subst this
              simp [mem_diff] at hu
      · have hse : ∀ e, (∀ y, adj e y → y = f) → s ≠ e := by
          intro e he ese
          subst ese
          exact hxf (he x (sym _ _ hs.1))
        have hin : ∀ e, e ∈ R → x ≠ e → e ∈ diff R [x] := fun e h h' =>
          mem_diff.2 ⟨h, by simpa using Ne.symm h'⟩
        have hxp : x ≠ p := by
          intro e; subst e
          exact hsf (hnx f hfR (sym _ _ ((hff x).2 (by simp)))).symm
        obtain ⟨w, k1, k2, k3⟩ := ih (diff R [x]) s (pos ++ [x]) hnd' (by omega) hs.2 hfR hsf
          (g1 s hs.2 (h2 s hsR hsf) hs.1)
          (fun y hy hyf a ha b hb c hc' => h2 y (mem_diff.1 hy).1 hyf a (mem_diff.1 ha).1 b
            (mem_diff.1 hb).1 c (mem_diff.1 hc').1)
          ⟨p, e1, e2, hin p hp hxp, hin e1 he1 hx1, hin e2 he2 hx2, h12, h1p, h2p, hse e1 hE1,
            hse e2 hE2, hff, hE1, hE2⟩ g2
        refine ⟨s :: w, by rw [k1]; simp, (List.Perm.cons x k2).trans hperm, ?_⟩
        match w, k2, k3 with
        | a :: b :: w', k2, k3 =>
          refine IsFork.cons k3 hs.1 ?_
          intro z hz hxz
          have hzR : z ∈ diff R [x] := k2.subset (List.mem_cons_of_mem _ hz)
          have e := hnx z hzR hxz
          subst e
          have := k2.nodup_iff.2 hnd'
          rw [List.nodup_cons] at this
          exact this.1 hz

end Verif.Dynkin
