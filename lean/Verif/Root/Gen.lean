import Verif.Root.Lemmas
/-
The generation of the positive roots (rootdata.cpp L142-220) produces all positive roots, level by level.
-/
namespace Verif.Root
open Verif.Coxeter CoxeterSystem

section
variable {rk : Nat} {M : CoxeterMatrix (Fin rk)} {W : Type} [Group W] (cs : CoxeterSystem M W) {C : Fin rk → Fin rk → ℤ} (h : IsCartan C M)

/-- positive roots -/
def PosRoot (β : Fin rk → ℤ) : Prop := (∃ β' t, IsRoot cs h β β' t) ∧ ∀ i, 0 ≤ β i

variable {cs h}

theorem posRoot_simple (s : Fin rk) : PosRoot cs h (root s) :=
  ⟨⟨_, _, isRoot_simple s⟩, fun i => by rw [root_apply]; split <;> omega⟩

theorem PosRoot.lev_pos {β : Fin rk → ℤ} (hb : PosRoot cs h β) : 1 ≤ lev β := by
  obtain ⟨⟨β', t, hr⟩, hp⟩ := hb
  exact Verif.Coxeter.lev_pos hp hr.ne_zero

theorem PosRoot.refl {β : Fin rk → ℤ} (hb : PosRoot cs h β) {s : Fin rk} (hs : β ≠ root s) : PosRoot cs h (srefl C s β) := by
  obtain ⟨⟨β', t, hr⟩, hp⟩ := hb
  have := hr.act (cs.simple s)
  rw [geom_simple] at this
  exact ⟨⟨_, _, this⟩, hr.simple_pos hp hs⟩

theorem pairing_srefl (h : IsCartan C M) (s : Fin rk) (v : Fin rk → ℤ) : pairing C s (srefl C s v) = -pairing C s v := by
  rw [srefl_apply, map_sub, map_smul, pairing_root, h.diag, smul_eq_mul]
  ring

theorem srefl_eq_iff (h : IsCartan C M) (s : Fin rk) {v w : Fin rk → ℤ} : srefl C s v = w ↔ v = srefl C s w :=
  ⟨fun e => by rw [← e, srefl_srefl h], fun e => by rw [e, srefl_srefl h]⟩

/-- below a positive root there are positive roots at all positive levels -/
theorem PosRoot.at_level [Finite W] {β : Fin rk → ℤ} (hb : PosRoot cs h β) {l : ℤ} (h1 : 1 ≤ l) (hl : l ≤ lev β) :
    ∃ γ, PosRoot cs h γ ∧ lev γ = l := by
  obtain ⟨d, hd⟩ : ∃ d : Nat, lev β = l + d := ⟨(lev β - l).toNat, by omega⟩
  induction d generalizing β with
  | zero => exact ⟨β, hb, by simpa using hd⟩
  | succ d ih =>
    obtain ⟨⟨β', t, hr⟩, hp⟩ := hb
    obtain ⟨γ, γ', u, h2, h3, h4⟩ := hr.lower hp (by push_cast at hd; omega)
    exact ih ⟨⟨γ', u, h2⟩, h3⟩ (by push_cast at hd; omega) (by push_cast at hd; omega)

/-- value of a link: the position of the reflected root, or of the root itself if it is the simple root -/
def linkVal (C : Fin rk → Fin rk → ℤ) (R : List (Fin rk → ℤ)) (v : Fin rk → ℤ) (i : Fin rk) : Nat :=
  if v = root i then (if v ∈ R then R.idxOf v else undef) else if srefl C i v ∈ R then R.idxOf (srefl C i v) else undef

/-- the order in which roots are generated -/
def before (v w : Fin rk → ℤ) : Prop := lev v < lev w ∨ lev v = lev w ∧ less (enc v) (enc w) = true

theorem before_ne {v w : Fin rk → ℤ} (hb : before v w) : v ≠ w := by
  rintro rfl
  rcases hb with hb | ⟨-, hb⟩
  · omega
  · rw [less_irrefl] at hb; cases hb

/-- elements waiting at a level -/
def Cand (C : Fin rk → Fin rk → ℤ) (P : (Fin rk → ℤ) → Fin rk → Prop) (k : Nat) (x : BV) : Prop :=
  (∃ δ i, P δ i ∧ pairing C i δ < 0 ∧ x = enc (srefl C i δ) ∧ lev (srefl C i δ) = k) ∨ k = 1 ∧ ∃ s : Fin rk, x = enc (root s)

/-- the state while the roots `R` are present, those of level less than `l` and some of level `l` -/
structure GInv (cs : CoxeterSystem M W) (h : IsCartan C M) (l : Nat) (R : List (Fin rk → ℤ)) (g : Gen) : Prop where
  pos : ∀ v ∈ R, PosRoot cs h v
  order : R.Pairwise before
  lev_le : ∀ v ∈ R, lev v ≤ l
  complete : ∀ v, PosRoot cs h v → lev v < l → v ∈ R
  roots : g.roots = R.map enc
  desc : ∃ f, g.desc = tab R.length 32 f ∧ ∀ j (hj : j < R.length) k, f j k = true ↔ ∃ hk : k < rk, 0 < pairing C ⟨k, hk⟩ R[j]
  asc : ∃ f, g.asc = tab R.length 32 f ∧ ∀ j (hj : j < R.length) k, f j k = true ↔ ∃ hk : k < rk, pairing C ⟨k, hk⟩ R[j] < 0
  link : ∃ f, g.link = tab R.length rk f ∧ ∀ j (hj : j < R.length) (i : Fin rk), f j i = linkVal C R R[j] i
  first : g.first.length = l + 1 ∧ ∀ k, 1 ≤ k → k ≤ l → ∃ f, g.first[k]? = some f ∧ f ≤ R.length ∧ ∀ j (hj : j < R.length), j < f ↔ lev R[j] < k
  levels : g.levels.length = 4 * rk ∧ ∀ k, l < k → k < 4 * rk → ∃ s, g.levels[k]? = some s ∧ IsSet rk s ∧
    ∀ x, x ∈ s ↔ Cand C (fun δ _ => δ ∈ R) k x

/-- the state after treatment of the first `k` simple coroots for the root `α` -/
structure IInv (cs : CoxeterSystem M W) (h : IsCartan C M) (l : Nat) (R : List (Fin rk → ℤ)) (α : Fin rk → ℤ) (k : Nat) (g : Gen) : Prop where
  roots : g.roots = (R ++ [α]).map enc
  desc : ∃ f, g.desc = tab (R.length + 1) 32 f ∧ (∀ j (hj : j < R.length) k, f j k = true ↔ ∃ hk : k < rk, 0 < pairing C ⟨k, hk⟩ R[j]) ∧
    ∀ m, f R.length m = true ↔ m < k ∧ ∃ hm : m < rk, 0 < pairing C ⟨m, hm⟩ α
  asc : ∃ f, g.asc = tab (R.length + 1) 32 f ∧ (∀ j (hj : j < R.length) k, f j k = true ↔ ∃ hk : k < rk, pairing C ⟨k, hk⟩ R[j] < 0) ∧
    ∀ m, f R.length m = true ↔ m < k ∧ ∃ hm : m < rk, pairing C ⟨m, hm⟩ α < 0
  link : ∃ f, g.link = tab (R.length + 1) rk f ∧
    (∀ j (hj : j < R.length) (i : Fin rk), f j i = if i.1 < k then linkVal C (R ++ [α]) R[j] i else linkVal C R R[j] i) ∧
    ∀ i : Fin rk, f R.length i = if i.1 < k then linkVal C (R ++ [α]) α i else undef
  first : g.first.length = l + 1 ∧ ∀ k, 1 ≤ k → k ≤ l → ∃ f, g.first[k]? = some f ∧ f ≤ R.length ∧ ∀ j (hj : j < R.length), j < f ↔ lev R[j] < k
  levels : g.levels.length = 4 * rk ∧ ∀ m, l < m → m < 4 * rk → ∃ s, g.levels[m]? = some s ∧ IsSet rk s ∧
    ∀ x, x ∈ s ↔ Cand C (fun δ i => δ ∈ R ∨ δ = α ∧ i.1 < k) m x

theorem order_nodup {R : List (Fin rk → ℤ)} (ho : R.Pairwise before) : R.Nodup := ho.imp fun hb => before_ne hb

/-- the search for the lower root -/
theorem lookDown_ok {R : List (Fin rk → ℤ)} (hn : R.Nodup) {roots : List BV} (more : List BV) (hr : roots = R.map enc ++ more) {n : Nat} {f : Nat → Nat → Nat}
    {cur i j0 : Nat} (hcur : cur < n) (hi : i < rk) (hj0 : j0 < R.length) (hjn : j0 < n) :
    ∀ (k j : Nat), j ≤ j0 → j0 < j + k → lookDown roots (enc R[j0]) cur i k j (tab n rk f) =
      .ok (tab n rk fun a b => if a = j0 ∧ b = i then cur else if a = cur ∧ b = i then j0 else f a b)
  | 0, j, h1, h2 => by omega
  | k + 1, j, h1, h2 => by
    have hjR : j < R.length := by omega
    rw [lookDown]
    have hg : Vec.get roots j = .ok (enc R[j]) := by
      rw [Vec.get_ok (by rw [hr, List.length_append, List.length_map]; omega)]
      subst hr
      rw [List.getElem_append_left (by simpa using hjR), List.getElem_map]
    rw [hg, Res.ok_bind]
    by_cases he : j = j0
    · subst he
      rw [if_pos rfl, setLink_tab _ hcur hi, Res.ok_bind, setLink_tab _ hjn hi]
    · rw [if_neg (by rw [enc_inj]; intro e; exact he ((List.Nodup.getElem_inj_iff hn).mp e))]
      exact lookDown_ok hn more hr hcur hi hj0 hjn k (j + 1) (by omega) (by omega)

theorem update_eq_srefl (i : Fin rk) (α : Fin rk → ℤ) : Function.update α i (α i - pairing C i α) = srefl C i α := by
  funext k
  rw [srefl_apply, Function.update_apply, Pi.sub_apply, Pi.smul_apply, root_apply, smul_eq_mul]
  by_cases hk : k = i
  · subst hk; simp
  · simp [hk]

theorem dot_column (α : Fin rk → ℤ) (i : Fin rk) : dot (enc α) (enc fun j => C j i) = pairing C i α := by
  rw [dot_enc]; rfl

/-- the hypotheses on the root being treated -/
structure NewRoot (cs : CoxeterSystem M W) (h : IsCartan C M) (l : Nat) (R : List (Fin rk → ℤ)) (α : Fin rk → ℤ) : Prop where
  lpos : 1 ≤ l
  pos : PosRoot cs h α
  lev_eq : lev α = l
  new : α ∉ R
  Rpos : ∀ v ∈ R, PosRoot cs h v
  order : R.Pairwise before
  lev_le : ∀ v ∈ R, lev v ≤ l
  complete : ∀ v, PosRoot cs h v → lev v < l → v ∈ R
  simple : l = 1 → ∀ i, α = root i → R.length = i.1
  bound : ∀ v, PosRoot cs h v → lev v ≤ 4 * rk - 2
  count : R.length < undef

theorem linkVal_append_of_ne {R : List (Fin rk → ℤ)} {α v : Fin rk → ℤ} (hv : v ∈ R) {i : Fin rk} (hne : v = root i ∨ srefl C i v ≠ α) :
    linkVal C (R ++ [α]) v i = linkVal C R v i := by
  unfold linkVal
  by_cases h1 : v = root i
  · rw [if_pos h1, if_pos h1, if_pos hv, if_pos (by simp [hv]), List.idxOf_append_of_mem hv]
  · rw [if_neg h1, if_neg h1]
    have h2 := hne.resolve_left h1
    by_cases h3 : srefl C i v ∈ R
    · rw [if_pos h3, if_pos (by simp [h3]), List.idxOf_append_of_mem h3]
    · rw [if_neg h3, if_neg (by simp [h3, h2])]

theorem idxOf_append_self {R : List (Fin rk → ℤ)} {α : Fin rk → ℤ} (hn : α ∉ R) : (R ++ [α]).idxOf α = R.length := by
  rw [List.idxOf_append_of_notMem hn]; simp

theorem linkVal_self {R : List (Fin rk → ℤ)} {α : Fin rk → ℤ} (hn : α ∉ R) {i : Fin rk} (h1 : α = root i ∨ srefl C i α = α) :
    linkVal C (R ++ [α]) α i = R.length := by
  unfold linkVal
  by_cases h2 : α = root i
  · rw [if_pos h2, if_pos (by simp), idxOf_append_self hn]
  · rw [if_neg h2, h1.resolve_left h2, if_pos (by simp), idxOf_append_self hn]

theorem flag_step {f : Nat → Nat → Bool} {n k : Nat} {Q : Fin rk → Prop} (hk : k < rk) (b : Bool) (hb : b = true ↔ Q ⟨k, hk⟩)
    (hf : ∀ m, f n m = true ↔ m < k ∧ ∃ hm : m < rk, Q ⟨m, hm⟩) :
    ∀ m, (if n = n ∧ m = k then (b || f n m) else f n m) = true ↔ m < k + 1 ∧ ∃ hm : m < rk, Q ⟨m, hm⟩ := by
  intro m
  by_cases hm : m = k
  · subst hm
    rw [if_pos ⟨rfl, rfl⟩, Bool.or_eq_true, hb, hf]
    constructor
    · rintro (h1 | h1)
      · exact ⟨by omega, hk, h1⟩
      · exact ⟨by omega, h1.2⟩
    · rintro ⟨_, _, h1⟩
      exact .inl h1
  · rw [if_neg (by simp [hm]), hf]
    constructor
    · rintro ⟨h1, h2⟩
      exact ⟨by omega, h2⟩
    · rintro ⟨h1, h2⟩
      exact ⟨by omega, h2⟩

/-- flags that do not change -/
theorem flag_keep {f : Nat → Nat → Bool} {n k : Nat} {Q : Fin rk → Prop} (hk : k < rk) (hb : ¬ Q ⟨k, hk⟩)
    (hf : ∀ m, f n m = true ↔ m < k ∧ ∃ hm : m < rk, Q ⟨m, hm⟩) :
    ∀ m, f n m = true ↔ m < k + 1 ∧ ∃ hm : m < rk, Q ⟨m, hm⟩ := by
  intro m
  rw [hf]
  constructor
  · rintro ⟨h1, h2⟩
    exact ⟨by omega, h2⟩
  · rintro ⟨h1, h2, h3⟩
    refine ⟨?_, h2, h3⟩
    by_contra hc
    have : m = k := by omega
    subst this
    exact hb h3

theorem flag_set {f : Nat → Nat → Bool} {n k : Nat} {Q : Fin rk → Prop} (hk : k < rk) (hb : Q ⟨k, hk⟩)
    (hf : ∀ m, f n m = true ↔ m < k ∧ ∃ hm : m < rk, Q ⟨m, hm⟩) :
    ∀ m, (if n = n ∧ m = k then true else f n m) = true ↔ m < k + 1 ∧ ∃ hm : m < rk, Q ⟨m, hm⟩ := by
  intro m
  have := flag_step hk true (by simp [hb]) hf m
  simpa using this

theorem cand_keep {R : List (Fin rk → ℤ)} {α : Fin rk → ℤ} {k : Nat} (hk : k < rk) (hp : ¬ pairing C ⟨k, hk⟩ α < 0) (m : Nat) (x : BV) :
    Cand C (fun δ i => δ ∈ R ∨ δ = α ∧ i.1 < k + 1) m x ↔ Cand C (fun δ i => δ ∈ R ∨ δ = α ∧ i.1 < k) m x := by
  unfold Cand
  refine or_congr_left ?_
  constructor
  · rintro ⟨δ, i, h1, h2, h3⟩
    refine ⟨δ, i, ?_, h2, h3⟩
    rcases h1 with h1 | ⟨rfl, h1⟩
    · exact .inl h1
    · right
      refine ⟨rfl, ?_⟩
      by_contra hc
      have : i = ⟨k, hk⟩ := by ext; simp only; omega
      subst this
      exact hp h2
  · rintro ⟨δ, i, h1, h2, h3⟩
    refine ⟨δ, i, ?_, h2, h3⟩
    rcases h1 with h1 | ⟨rfl, h1⟩
    · exact .inl h1
    · exact .inr ⟨rfl, by omega⟩

/-- one simple coroot -/
theorem genStep_ok (nd : Bool) (hrk : rk ≤ 32) {l : Nat} {R : List (Fin rk → ℤ)} {α : Fin rk → ℤ} (H : NewRoot cs h l R α) {k : Nat} (hk : k < rk) {g : Gen}
    (hg : IInv cs h l R α k g) : ∃ g', genStep nd (encM fun j i => C i j) l R.length (enc α) g k = .ok g' ∧ IInv cs h l R α (k + 1) g' := by
  obtain ⟨i, hi⟩ : ∃ i : Fin rk, i = ⟨k, hk⟩ := ⟨_, rfl⟩
  have hik : i.1 = k := by rw [hi]
  obtain ⟨fd, hd1, hd2, hd3⟩ := hg.desc
  obtain ⟨fa, ha1, ha2, ha3⟩ := hg.asc
  obtain ⟨fl, hl1, hl2, hl3⟩ := hg.link
  have hco : Vec.get (encM fun j i => C i j) k = .ok (enc fun j => C j i) := by
    rw [← hik, encM_row]
  have hnodup := order_nodup H.order
  -- links of other roots in this column
  have hother : ∀ (f' : Nat → Nat → Nat) , (∀ j (hj : j < R.length), f' j i = linkVal C (R ++ [α]) R[j] i) →
      (f' R.length i = linkVal C (R ++ [α]) α i) → (∀ a (b : Fin rk), b ≠ i → f' a b = fl a b) →
      (∀ j (hj : j < R.length) (i : Fin rk), f' j i = if i.1 < k + 1 then linkVal C (R ++ [α]) R[j] i else linkVal C R R[j] i) ∧
      ∀ i : Fin rk, f' R.length i = if i.1 < k + 1 then linkVal C (R ++ [α]) α i else undef := by
    intro f' h1 h2 h3
    constructor
    · intro j hj b
      by_cases hb : b = i
      · subst hb; rw [h1 j hj, if_pos (by omega)]
      · rw [h3 j b hb, hl2 j hj b]
        have : b.1 ≠ k := fun e => hb (by ext; omega)
        by_cases hbk : b.1 < k
        · rw [if_pos hbk, if_pos (by omega)]
        · rw [if_neg hbk, if_neg (by omega)]
    · intro b
      by_cases hb : b = i
      · subst hb; rw [h2, if_pos (by omega)]
      · rw [h3 _ b hb, hl3 b]
        have : b.1 ≠ k := fun e => hb (by ext; omega)
        by_cases hbk : b.1 < k
        · rw [if_pos hbk, if_pos (by omega)]
        · rw [if_neg hbk, if_neg (by omega)]
  have hold : ∀ j (hj : j < R.length), fl j i = linkVal C R R[j] i := by
    intro j hj
    rw [hl2 j hj i, if_neg (by omega)]
  have hfln : fl R.length i = undef := by rw [hl3 i, if_neg (by omega)]
  rw [genStep, hco, Res.ok_bind, dot_column]
  obtain ⟨c, hc⟩ : ∃ c, c = pairing C i α := ⟨_, rfl⟩
  have hsl : lev (srefl C i α) = l - c := by rw [lev_srefl, H.lev_eq, hc]
  by_cases hc0 : c = 0
  · -- orthogonal
    have hs : srefl C i α = α := by rw [srefl_apply, ← hc, hc0, zero_smul, sub_zero]
    simp only [← hc, if_pos hc0]
    rw [hl1, setLink_tab _ (by omega) hk]
    refine ⟨_, rfl, ⟨hg.roots, ⟨fd, hd1, hd2, ?_⟩, ⟨fa, ha1, ha2, ?_⟩, ⟨_, rfl, hother (fun a b => if a = R.length ∧ b = k then R.length else fl a b) ?_ ?_ ?_⟩, hg.first, ?_⟩⟩
    · exact flag_keep (Q := fun i => 0 < pairing C i α) hk (by rw [← hi, ← hc]; omega) hd3
    · exact flag_keep (Q := fun i => pairing C i α < 0) hk (by rw [← hi, ← hc]; omega) ha3
    · intro j hj
      beta_reduce
      rw [if_neg (by omega), hold j hj, linkVal_append_of_ne (List.getElem_mem hj)]
      right
      rw [ne_eq, srefl_eq_iff h, hs]
      intro e
      exact H.new (e ▸ List.getElem_mem hj)
    · beta_reduce
      rw [if_pos ⟨rfl, hik⟩, linkVal_self H.new (.inr hs)]
    · intro a b hb
      beta_reduce
      rw [if_neg]
      rintro ⟨-, e⟩
      exact hb (by ext; omega)
    · refine ⟨hg.levels.1, fun m h1 h2 => ?_⟩
      obtain ⟨s, h3, h4, h5⟩ := hg.levels.2 m h1 h2
      refine ⟨s, h3, h4, fun x => ?_⟩
      rw [h5, cand_keep hk (by rw [← hi, ← hc]; omega)]
  · simp only [← hc, if_neg hc0]
    have hput : Vec.put (enc α) k (α i - c) = .ok (enc (srefl C i α)) := by
      rw [← hik, enc_put, hc, update_eq_srefl]
    have hget : Vec.get (enc α) k = .ok (α i) := by rw [← hik, enc_get]
    rw [hget, Res.ok_bind, hput, Res.ok_bind]
    by_cases hcp : 0 < c
    · rw [if_pos hcp, hd1, tab_get _ (by omega), Res.ok_bind, row_put _ (by omega), Res.ok_bind, tab_put _ (by omega), Res.ok_bind]
      have hdesc : tab (R.length + 1) 32 (fun a b => if a = R.length then (fun k_1 => if k_1 = k then true else fd R.length k_1) b else fd a b) =
          tab (R.length + 1) 32 (fun a b => if a = R.length ∧ b = k then true else fd a b) := by
        refine tab_congr fun a _ b _ => ?_
        by_cases ha : a = R.length
        · subst ha; simp
        · simp [ha]
      rw [hdesc]
      have hd2' : ∀ j (hj : j < R.length) m, (if j = R.length ∧ m = k then true else fd j m) = true ↔ ∃ hm : m < rk, 0 < pairing C ⟨m, hm⟩ R[j] := by
        intro j hj m
        rw [if_neg (by omega)]
        exact hd2 j hj m
      have hd3' := flag_set (Q := fun i => 0 < pairing C i α) hk (by rw [← hi, ← hc]; exact hcp) hd3
      have ha3' := flag_keep (Q := fun i => pairing C i α < 0) hk (by rw [← hi, ← hc]; omega) ha3
      have hlev' : g.levels.length = 4 * rk ∧ ∀ m, l < m → m < 4 * rk → ∃ s, g.levels[m]? = some s ∧ IsSet rk s ∧
          ∀ x, x ∈ s ↔ Cand C (fun δ i => δ ∈ R ∨ δ = α ∧ i.1 < k + 1) m x := by
        refine ⟨hg.levels.1, fun m h1 h2 => ?_⟩
        obtain ⟨s, h3, h4, h5⟩ := hg.levels.2 m h1 h2
        refine ⟨s, h3, h4, fun x => ?_⟩
        rw [h5, cand_keep hk (by rw [← hi, ← hc]; omega)]
      by_cases hl : l = 1
      · -- a simple root
        obtain ⟨s, hs⟩ := eq_root_of_lev H.pos.2 (by rw [H.lev_eq, hl]; rfl)
        have hsi : s = i := by
          by_contra hne
          rw [hs, pairing_root] at hc
          have := h.nonpos s i hne
          omega
        subst hsi
        have hcur := H.simple hl s hs
        rw [if_pos hl, Res.assertIn_bind nd (decide_eq_true (by omega)), hl1, setLink_tab _ (by omega) hk, Res.ok_bind, tab_get _ (by omega),
          Res.ok_bind, row_get _ hk, Res.ok_bind, Res.assertIn_bind nd (decide_eq_true (by rw [if_pos ⟨rfl, rfl⟩]; have := H.count; omega))]
        refine ⟨_, rfl, ⟨hg.roots, ⟨_, rfl, hd2', hd3'⟩, ⟨fa, ha1, ha2, ha3'⟩, ⟨_, rfl, hother (fun a b => if a = R.length ∧ b = k then R.length else fl a b) ?_ ?_ ?_⟩, hg.first, hlev'⟩⟩
        · intro j hj
          beta_reduce
          rw [if_neg (by omega), hold j hj, linkVal_append_of_ne (List.getElem_mem hj)]
          right
          rw [ne_eq, srefl_eq_iff h, hs, srefl_root h]
          intro e
          have := (H.Rpos _ (List.getElem_mem hj)).2 s
          rw [e, Pi.neg_apply, root_apply, if_pos rfl] at this
          omega
        · beta_reduce
          rw [if_pos ⟨rfl, hik⟩, linkVal_self H.new (.inl hs)]
        · intro a b hb
          beta_reduce
          rw [if_neg]
          rintro ⟨-, e⟩
          exact hb (by ext; omega)
      · have hne : α ≠ root i := by
          intro e
          have := H.lev_eq
          rw [e, lev_root] at this
          omega
        have hβ := H.pos.refl hne
        have hβl := hβ.lev_pos
        rw [hsl] at hβl
        have hβR := H.complete _ hβ (by rw [hsl]; omega)
        obtain ⟨j0, hj0, hj0e⟩ := List.getElem_of_mem hβR
        obtain ⟨f1, e1, e2, e3⟩ := hg.first.2 (l - c.toNat) (by omega) (by omega)
        obtain ⟨f2, e4, e5, e6⟩ := hg.first.2 (l - c.toNat + 1) (by omega) (by omega)
        have hb1 : f1 ≤ j0 := by
          by_contra hcon
          have := (e3 j0 hj0).mp (by omega)
          rw [hj0e, hsl] at this
          omega
        have hb2 : j0 < f2 := by
          rw [e6 j0 hj0, hj0e, hsl]
          omega
        have hgv : ∀ {x m : Nat}, g.first[m]? = some x → Vec.get g.first m = .ok x := by
          intro x m e; rw [Vec.get, e]
        have hlook := lookDown_ok hnodup (roots := g.roots) [enc α] (by rw [hg.roots, List.map_append]; rfl) (n := R.length + 1) (f := fl) (cur := R.length) (i := k) (j0 := j0)
          (by omega) hk hj0 (by omega) (f2 - f1) f1 hb1 (by omega)
        rw [hj0e] at hlook
        rw [if_neg hl, if_neg (by omega), hgv e1, Res.ok_bind, hgv e4, Res.ok_bind, hl1, hlook, Res.ok_bind, tab_get _ (by omega),
          Res.ok_bind, row_get _ hk, Res.ok_bind, Res.assertIn_bind nd (decide_eq_true (by
            rw [if_neg (by omega), if_pos ⟨rfl, rfl⟩]; have := H.count; omega))]
        have hidx : R.idxOf (srefl C i α) = j0 := by rw [← hj0e]; exact hnodup.idxOf_getElem j0 hj0
        refine ⟨_, rfl, ⟨hg.roots, ⟨_, rfl, hd2', hd3'⟩, ⟨fa, ha1, ha2, ha3'⟩, ⟨_, rfl, hother (fun a b => if a = j0 ∧ b = k then R.length else if a = R.length ∧ b = k then j0 else fl a b) ?_ ?_ ?_⟩, hg.first, hlev'⟩⟩
        · intro j hj
          beta_reduce
          by_cases hjj : j = j0
          · subst hjj
            rw [if_pos ⟨rfl, hik⟩, linkVal, hj0e, srefl_srefl h, if_neg, if_pos (by simp), idxOf_append_self H.new]
            intro e
            have := congrArg (pairing C i) e
            rw [pairing_srefl h, pairing_root, h.diag, ← hc] at this
            omega
          · rw [if_neg (by omega), if_neg (by omega), hold j hj, linkVal_append_of_ne (List.getElem_mem hj)]
            right
            rw [ne_eq, srefl_eq_iff h, ← hj0e]
            intro e
            exact hjj ((List.Nodup.getElem_inj_iff hnodup).mp e)
        · beta_reduce
          rw [if_neg (by omega), if_pos ⟨rfl, hik⟩, linkVal, if_neg hne, if_pos (by simp [hβR]), List.idxOf_append_of_mem hβR, hidx]
        · intro a b hb
          beta_reduce
          have : b.1 ≠ k := fun e => hb (by ext; omega)
          rw [if_neg (by omega), if_neg (by omega)]
    · -- an ascent
      have hcn : c < 0 := by omega
      rw [if_neg hcp, ha1, tab_get _ (by omega), Res.ok_bind, row_put _ (by omega), Res.ok_bind, tab_put _ (by omega), Res.ok_bind]
      have hasc : tab (R.length + 1) 32 (fun a b => if a = R.length then (fun k_1 => if k_1 = k then true else fa R.length k_1) b else fa a b) =
          tab (R.length + 1) 32 (fun a b => if a = R.length ∧ b = k then true else fa a b) := by
        refine tab_congr fun a _ b _ => ?_
        by_cases ha : a = R.length
        · subst ha; simp
        · simp [ha]
      rw [hasc]
      have hne : α ≠ root i := by
        intro e
        rw [e, pairing_root, h.diag] at hc
        omega
      have hβ := H.pos.refl hne
      have hβb := H.bound _ hβ
      rw [hsl] at hβb
      obtain ⟨s, h3, h4, h5⟩ := hg.levels.2 (l + (-c).toNat) (by omega) (by omega)
      rw [show Vec.get g.levels (l + (-c).toNat) = .ok s by rw [Vec.get, h3], Res.ok_bind, Vec.put_ok (by rw [hg.levels.1]; omega), Res.ok_bind]
      refine ⟨_, rfl, ⟨hg.roots, ⟨fd, hd1, hd2, ?_⟩, ⟨_, rfl, ?_, ?_⟩, ⟨fl, hl1, hother _ ?_ ?_ ?_⟩, hg.first, ?_⟩⟩
      · exact flag_keep (Q := fun i => 0 < pairing C i α) hk (by rw [← hi, ← hc]; omega) hd3
      · intro j hj m
        rw [if_neg (by omega)]
        exact ha2 j hj m
      · exact flag_set (Q := fun i => pairing C i α < 0) hk (by rw [← hi, ← hc]; exact hcn) ha3
      · intro j hj
        rw [hold j hj, linkVal_append_of_ne (List.getElem_mem hj)]
        right
        rw [ne_eq, srefl_eq_iff h]
        intro e
        have := H.lev_le _ (List.getElem_mem hj)
        rw [e, hsl] at this
        omega
      · rw [hfln, linkVal, if_neg hne, if_neg]
        intro hm
        rcases List.mem_append.mp hm with hm | hm
        · have := H.lev_le _ hm
          rw [hsl] at this
          omega
        · have := congrArg lev (List.mem_singleton.mp hm)
          rw [hsl, H.lev_eq] at this
          omega
      · intro a b hb; rfl
      · refine ⟨by simp only [List.length_set]; exact hg.levels.1, fun m h1 h2 => ?_⟩
        simp only []
        by_cases hm : m = l + (-c).toNat
        · subst hm
          refine ⟨insert (enc (srefl C i α)) s, ?_, insert_set (enc_length _) h4, fun x => ?_⟩
          · rw [List.getElem?_set_self (by rw [hg.levels.1]; omega)]
          · rw [mem_insert (enc_length _) h4, h5]
            unfold Cand
            rw [← or_assoc]
            refine or_congr_left ?_
            constructor
            · rintro (rfl | ⟨δ, b, h6, h7, h8⟩)
              · exact ⟨α, i, .inr ⟨rfl, by omega⟩, by omega, rfl, by rw [hsl]; push_cast; omega⟩
              · refine ⟨δ, b, ?_, h7, h8⟩
                rcases h6 with h6 | ⟨h6, h9⟩
                · exact .inl h6
                · exact .inr ⟨h6, by omega⟩
            · rintro ⟨δ, b, h6, h7, h8⟩
              rcases h6 with h6 | ⟨h6, h9⟩
              · exact .inr ⟨δ, b, .inl h6, h7, h8⟩
              · by_cases hb : b = i
                · subst hb h6
                  exact .inl h8.1
                · have : b.1 ≠ k := fun e => hb (by ext; omega)
                  exact .inr ⟨δ, b, .inr ⟨h6, by omega⟩, h7, h8⟩
        · obtain ⟨s', h3', h4', h5'⟩ := hg.levels.2 m h1 h2
          refine ⟨s', ?_, h4', fun x => ?_⟩
          · rw [List.getElem?_set_ne (by omega), h3']
          · rw [h5']
            unfold Cand
            refine or_congr_left ?_
            constructor
            · rintro ⟨δ, b, h6, h7, h8⟩
              refine ⟨δ, b, ?_, h7, h8⟩
              rcases h6 with h6 | ⟨h6, h9⟩
              · exact .inl h6
              · exact .inr ⟨h6, by omega⟩
            · rintro ⟨δ, b, h6, h7, h8, h9⟩
              refine ⟨δ, b, ?_, h7, h8, h9⟩
              rcases h6 with h6 | ⟨rfl, h6⟩
              · exact .inl h6
              · right
                refine ⟨rfl, ?_⟩
                by_contra hcon
                have : b = i := by ext; omega
                subst this
                rw [hsl] at h9
                omega

end

end Verif.Root
