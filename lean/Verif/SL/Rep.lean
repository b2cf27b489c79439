import Verif.SL.Model
import Mathlib.Data.List.Nodup
import Mathlib.Data.Finset.Card
/-
What the memory of the list model holds: `Rep m L` says that the list starting at each link field outside nodes
consists of the given nodes, and that the memory holds no other nodes.
-/
namespace Verif.SL
variable {T : Type}

/-- the address of the link field after the last of some nodes, that follow the link field at an address -/
def loc : Loc → List (Nat × T) → Loc
  | p, [] => p
  | _, a :: t => loc (.next a.1) t

/-- starting from the pointer `v`, one finds the given nodes, and after them the pointer `w` -/
def Seg (m : Mem T) : Option Nat → List (Nat × T) → Option Nat → Prop
  | v, [], w => v = w
  | v, a :: t, w => v = some a.1 ∧ m.cont a.1 = some a.2 ∧ Seg m (m.link (.next a.1)) t w

/-- a link field that exists -/
def Live (m : Mem T) : Loc → Prop
  | .root _ => True
  | .next a => (m.cont a).isSome

/-- the memory consists of the given lists, for each list object and variable; nodes are given by their address
and contents -/
structure Rep (m : Mem T) (L : Root → List (Nat × T)) : Prop where
  chain : ∀ r, Seg m (m.link (.root r)) (L r) none
  inj : ∀ p q a, Live m p → Live m q → m.link p = some a → m.link q = some a → p = q
  owned : ∀ a x, m.cont a = some x → ∃ r, (a, x) ∈ L r
  bound : ∀ a, (m.cont a).isSome → a < m.fresh

/-- the fields of list objects other than link fields are unchanged -/
def Same (m m' : Mem T) : Prop := m'.tail = m.tail ∧ m'.count = m.count

theorem Same.rfl' (m : Mem T) : Same m m := ⟨rfl, rfl⟩
theorem Same.trans {m m' m'' : Mem T} (h : Same m m') (k : Same m' m'') : Same m m'' :=
  ⟨k.1.trans h.1, k.2.trans h.2⟩

/-- the memory with other pointers in its link fields -/
abbrev Mem.withLink (m : Mem T) (f : Loc → Option Nat) : Mem T := { m with link := f }

@[simp] theorem upd_same {α β : Type} [DecidableEq α] (f : α → β) (a : α) (b : β) : upd f a b a = b := by
  simp [upd]
theorem upd_ne {α β : Type} [DecidableEq α] (f : α → β) {a c : α} (b : β) (h : c ≠ a) : upd f a b c = f c := by
  simp [upd, h]
theorem upd_self {α β : Type} [DecidableEq α] (f : α → β) {a : α} {b : β} (h : f a = b) : upd f a b = f := by
  funext x; by_cases hx : x = a
  · subst hx; simp [h]
  · exact upd_ne f b hx

theorem loc_append (p : Loc) (xs ys : List (Nat × T)) : loc p (xs ++ ys) = loc (loc p xs) ys := by
  induction xs generalizing p with
  | nil => rfl
  | cons a t ih => exact ih _

theorem loc_snoc (p : Loc) (xs : List (Nat × T)) (a : Nat × T) : loc p (xs ++ [a]) = .next a.1 := by
  rw [loc_append]; rfl

theorem loc_cases (p : Loc) (xs : List (Nat × T)) :
    (xs = [] ∧ loc p xs = p) ∨ ∃ us a, xs = us ++ [a] ∧ loc p xs = .next a.1 := by
  rcases List.eq_nil_or_concat xs with h | ⟨us, a, h⟩
  · exact Or.inl ⟨h, by rw [h]; rfl⟩
  · exact Or.inr ⟨us, a, by simpa using h, by rw [h]; simpa using loc_snoc p us a⟩

theorem Seg_append {m : Mem T} {v w : Option Nat} {xs ys : List (Nat × T)} :
    Seg m v (xs ++ ys) w ↔ ∃ u, Seg m v xs u ∧ Seg m u ys w := by
  induction xs generalizing v with
  | nil => simp [Seg]
  | cons a t ih =>
    simp only [List.cons_append, Seg, ih]
    constructor
    · rintro ⟨h, h', u, h1, h2⟩; exact ⟨u, ⟨h, h', h1⟩, h2⟩
    · rintro ⟨u, ⟨h, h', h1⟩, h2⟩; exact ⟨h, h', u, h1, h2⟩

theorem Seg_head {m : Mem T} {v : Option Nat} {xs : List (Nat × T)} (h : Seg m v xs none) :
    v = xs.head?.map Prod.fst := by
  cases xs with
  | nil => exact h
  | cons a t => exact h.1

/-- the pointer at the end of a segment is in the link field after it -/
theorem Seg_end {m : Mem T} {p : Loc} {xs : List (Nat × T)} {w : Option Nat}
    (h : Seg m (m.link p) xs w) : m.link (loc p xs) = w := by
  induction xs generalizing p with
  | nil => exact h
  | cons a t ih => exact ih h.2.2

theorem Seg_cont {m : Mem T} {v w : Option Nat} {xs : List (Nat × T)} (h : Seg m v xs w) :
    ∀ a ∈ xs, m.cont a.1 = some a.2 := by
  induction xs generalizing v with
  | nil => intro a ha; cases ha
  | cons b t ih =>
    intro a ha
    rcases List.mem_cons.mp ha with e | ha
    · rw [e]; exact h.2.1
    · exact ih h.2.2 a ha

/-- segments depend on their nodes only -/
theorem Seg_congr {m m' : Mem T} {v w : Option Nat} {xs : List (Nat × T)} (h : Seg m v xs w)
    (hl : ∀ a ∈ xs, m'.link (.next a.1) = m.link (.next a.1)) (hc : ∀ a ∈ xs, m'.cont a.1 = m.cont a.1) :
    Seg m' v xs w := by
  induction xs generalizing v with
  | nil => exact h
  | cons b t ih =>
    refine ⟨h.1, by rw [hc b (by simp)]; exact h.2.1, ?_⟩
    rw [hl b (by simp)]
    exact ih h.2.2 (fun a ha => hl a (by simp [ha])) (fun a ha => hc a (by simp [ha]))

/-- changing the last link field of a segment -/
theorem Seg_setEnd {m m' : Mem T} {p : Loc} {xs : List (Nat × T)} {w w' : Option Nat}
    (h : Seg m (m.link p) xs w) (hn : (xs.map Prod.fst).Nodup)
    (hp : xs ≠ [] → m'.link p = m.link p)
    (hl : ∀ a ∈ xs, Loc.next a.1 ≠ loc p xs → m'.link (.next a.1) = m.link (.next a.1))
    (he : m'.link (loc p xs) = w') (hc : ∀ a ∈ xs, m'.cont a.1 = m.cont a.1) :
    Seg m' (m'.link p) xs w' := by
  induction xs generalizing p with
  | nil => exact he
  | cons b t ih =>
    refine ⟨by rw [hp (by simp)]; exact h.1, by rw [hc b (by simp)]; exact h.2.1, ?_⟩
    rw [List.map_cons, List.nodup_cons] at hn
    refine ih h.2.2 hn.2 (fun ht => ?_) (fun a ha => hl a (by simp [ha])) he (fun a ha => hc a (by simp [ha]))
    apply hl b (by simp)
    intro e
    rcases loc_cases (Loc.next b.1) t with ⟨h0, _⟩ | ⟨us, c, h1, h2⟩
    · exact ht h0
    · have e' : Loc.next b.1 = Loc.next c.1 := e.trans h2
      apply hn.1
      rw [Loc.next.inj e', h1]
      simp

/-! ### What `Rep` says about nodes -/

theorem Rep.cont {m : Mem T} {L : Root → List (Nat × T)} (h : Rep m L) {r : Root} {a : Nat × T} (ha : a ∈ L r) :
    m.cont a.1 = some a.2 := Seg_cont (h.chain r) a ha

theorem Rep.link {m : Mem T} {L : Root → List (Nat × T)} (h : Rep m L) {r : Root} {xs ys : List (Nat × T)}
    (e : L r = xs ++ ys) : m.link (loc (.root r) xs) = ys.head?.map Prod.fst := by
  have := h.chain r
  rw [e, Seg_append] at this
  obtain ⟨u, h1, h2⟩ := this
  rw [Seg_end h1, Seg_head h2]

theorem Rep.live {m : Mem T} {L : Root → List (Nat × T)} (h : Rep m L) {r : Root} {xs ys : List (Nat × T)}
    (e : L r = xs ++ ys) : Live m (loc (.root r) xs) := by
  rcases loc_cases (Loc.root r) xs with ⟨_, h2⟩ | ⟨us, a, h1, h2⟩
  · rw [h2]; trivial
  · rw [h2]
    have : a ∈ L r := by rw [e, h1]; simp
    simp [Live, h.cont this]

theorem get_of_live {m : Mem T} {p : Loc} (h : Live m p) : get m p = .ok (m.link p) := by
  cases p with
  | root r => rfl
  | next a => have : (m.cont a).isSome = true := h; simp [get, this]

theorem set_of_live {m : Mem T} {p : Loc} (h : Live m p) (v : Option Nat) :
    set m p v = .ok { m with link := upd m.link p v } := by
  unfold set; rw [get_of_live h]; rfl

theorem Rep.get {m : Mem T} {L : Root → List (Nat × T)} (h : Rep m L) {r : Root} {xs ys : List (Nat × T)}
    (e : L r = xs ++ ys) : get m (loc (.root r) xs) = .ok (ys.head?.map Prod.fst) := by
  rw [get_of_live (h.live e), h.link e]

theorem Rep.node {m : Mem T} {L : Root → List (Nat × T)} (h : Rep m L) {r : Root} {xs ys : List (Nat × T)}
    {a : Nat × T} (e : L r = xs ++ a :: ys) : node m (loc (.root r) xs) = .ok a.1 := by
  unfold SL.node; rw [h.get e]
  have : a ∈ L r := by rw [e]; simp
  simp [h.cont this]

theorem Rep.item {m : Mem T} {L : Root → List (Nat × T)} (h : Rep m L) {r : Root} {xs ys : List (Nat × T)}
    {a : Nat × T} (e : L r = xs ++ a :: ys) : item m (loc (.root r) xs) = .ok a.2 := by
  unfold SL.item; rw [h.node e]
  have : a ∈ L r := by rw [e]; simp
  simp [contents, h.cont this]

theorem Rep.contents {m : Mem T} {L : Root → List (Nat × T)} (h : Rep m L) {r : Root} {a : Nat × T} (ha : a ∈ L r) :
    contents m a.1 = .ok a.2 := by simp [SL.contents, h.cont ha]

theorem Rep.advance {m : Mem T} {L : Root → List (Nat × T)} (h : Rep m L) {r : Root} {xs ys : List (Nat × T)}
    {a : Nat × T} (e : L r = xs ++ a :: ys) : advance m (loc (.root r) xs) = .ok (loc (.root r) (xs ++ [a])) := by
  unfold SL.advance; rw [h.node e, loc_snoc]; rfl

theorem Rep.atEnd {m : Mem T} {L : Root → List (Nat × T)} (h : Rep m L) {r : Root} {xs ys : List (Nat × T)}
    (e : L r = xs ++ ys) : atEnd m (loc (.root r) xs) = .ok ys.isEmpty := by
  unfold SL.atEnd; rw [h.get e]; cases ys <;> rfl

/-- different positions have different addresses -/
theorem Rep.loc_inj {m : Mem T} {L : Root → List (Nat × T)} (h : Rep m L) {r s : Root} {xs ys zs ws : List (Nat × T)}
    (e : L r = xs ++ ys) (e' : L s = zs ++ ws) (heq : loc (.root r) xs = loc (.root s) zs) : r = s ∧ xs = zs := by
  induction hn : xs.length generalizing xs ys zs ws with
  | zero =>
    have h0 : xs = [] := List.eq_nil_of_length_eq_zero hn
    subst h0
    rcases loc_cases (Loc.root s) zs with ⟨h1, h2⟩ | ⟨us, a, h1, h2⟩
    · rw [h2] at heq
      have : Loc.root r = Loc.root s := heq
      exact ⟨Loc.root.inj this, h1.symm⟩
    · rw [h2] at heq
      have : Loc.root r = Loc.next a.1 := heq
      cases this
  | succ n ih =>
    rcases loc_cases (Loc.root r) xs with ⟨h1, _⟩ | ⟨us, a, h1, h2⟩
    · rw [h1] at hn; cases hn
    · rcases loc_cases (Loc.root s) zs with ⟨h3, h4⟩ | ⟨vs, b, h3, h4⟩
      · rw [h2, h4] at heq; cases heq
      · have hab : a.1 = b.1 := by rw [h2, h4] at heq; exact Loc.next.inj heq
        have e1 : L r = us ++ (a :: ys) := by rw [e, h1]; simp
        have e2 : L s = vs ++ (b :: ws) := by rw [e', h3]; simp
        have l1 := h.link e1
        have l2 := h.link e2
        simp only [List.head?_cons, Option.map_some] at l1 l2
        rw [← hab] at l2
        have hloc := h.inj _ _ _ (h.live e1) (h.live e2) l1 l2
        have hlen : us.length = n := by rw [h1] at hn; simpa using hn
        obtain ⟨hrs, huv⟩ := ih e1 e2 hloc hlen
        refine ⟨hrs, ?_⟩
        have ca := h.cont (r := r) (a := a) (by rw [e1]; simp)
        have cb := h.cont (r := s) (a := b) (by rw [e2]; simp)
        rw [hab, cb] at ca
        rw [h1, h3, huv, Prod.ext hab (Option.some.inj ca).symm]

/-- a node is in one place -/
theorem Rep.uniq {m : Mem T} {L : Root → List (Nat × T)} (h : Rep m L) {r s : Root} {xs ys zs ws : List (Nat × T)}
    {a b : Nat × T} (e : L r = xs ++ a :: ys) (e' : L s = zs ++ b :: ws) (hab : a.1 = b.1) :
    r = s ∧ xs = zs ∧ ys = ws := by
  have l1 := h.link e
  have l2 := h.link e'
  simp only [List.head?_cons, Option.map_some] at l1 l2
  rw [← hab] at l2
  obtain ⟨h1, h2⟩ := h.loc_inj e e' (h.inj _ _ _ (h.live e) (h.live e') l1 l2)
  refine ⟨h1, h2, ?_⟩
  rw [h1, e', h2] at e
  exact (List.tail_eq_of_cons_eq (List.append_cancel_left e)).symm

theorem Rep.disj {m : Mem T} {L : Root → List (Nat × T)} (h : Rep m L) {r s : Root} (hrs : r ≠ s) {a b : Nat × T}
    (ha : a ∈ L r) (hb : b ∈ L s) : a.1 ≠ b.1 := by
  intro hab
  obtain ⟨xs, ys, e⟩ := List.append_of_mem ha
  obtain ⟨zs, ws, e'⟩ := List.append_of_mem hb
  exact hrs (h.uniq e e' hab).1

theorem Rep.nodup {m : Mem T} {L : Root → List (Nat × T)} (h : Rep m L) (r : Root) : ((L r).map Prod.fst).Nodup := by
  rw [List.nodup_map_iff_inj_on]
  · intro a ha b hb hab
    have ca := h.cont ha
    rw [hab, h.cont hb] at ca
    exact Prod.ext hab (Option.some.inj ca).symm
  · rw [List.nodup_iff_pairwise_ne, List.pairwise_iff_getElem]
    intro i j hi hj hij heq
    have e1 : L r = (L r).take i ++ (L r)[i] :: (L r).drop (i + 1) := by simp
    have e2 : L r = (L r).take j ++ (L r)[j] :: (L r).drop (j + 1) := by simp
    have := congrArg List.length (h.uniq e1 e2 (by rw [heq])).2.1
    rw [List.length_take, List.length_take] at this
    omega

theorem Rep.length_le {m : Mem T} {L : Root → List (Nat × T)} (h : Rep m L) (r : Root) : (L r).length ≤ m.fresh := by
  have h1 : ((L r).map Prod.fst).toFinset ⊆ Finset.range m.fresh := by
    intro a ha
    rw [List.mem_toFinset, List.mem_map] at ha
    obtain ⟨b, hb, rfl⟩ := ha
    rw [Finset.mem_range]
    exact h.bound _ (by rw [h.cont hb]; rfl)
  have h2 := Finset.card_le_card h1
  rw [List.toFinset_card_of_nodup (h.nodup r), Finset.card_range, List.length_map] at h2
  exact h2

theorem Rep.next_eq {m : Mem T} {L : Root → List (Nat × T)} (h : Rep m L) {r s : Root} {xs ys : List (Nat × T)}
    {c : Nat × T} (e : L r = xs ++ ys) (hc : c ∈ L s) (heq : Loc.next c.1 = loc (.root r) xs) :
    s = r ∧ ∃ us, xs = us ++ [c] := by
  obtain ⟨zs, ws, e'⟩ := List.append_of_mem hc
  have e2 : L s = (zs ++ [c]) ++ ws := by rw [e']; simp
  obtain ⟨h1, h2⟩ := h.loc_inj e e2 (by rw [loc_snoc, heq])
  exact ⟨h1.symm, zs, h2⟩

theorem Rep.ne_other {m : Mem T} {L : Root → List (Nat × T)} (h : Rep m L) {r s : Root} {xs ys : List (Nat × T)}
    {c : Nat × T} (e : L r = xs ++ ys) (hc : c ∈ L s) (hrs : s ≠ r) : Loc.next c.1 ≠ loc (.root r) xs :=
  fun heq => hrs (h.next_eq e hc heq).1

theorem Rep.ne_after {m : Mem T} {L : Root → List (Nat × T)} (h : Rep m L) {r : Root} {xs ys : List (Nat × T)}
    {c : Nat × T} (e : L r = xs ++ ys) (hc : c ∈ ys) : Loc.next c.1 ≠ loc (.root r) xs := by
  intro heq
  obtain ⟨_, us, h2⟩ := h.next_eq e (by rw [e]; simp [hc] : c ∈ L r) heq
  have := h.nodup r
  rw [e, h2, List.map_append, List.nodup_append] at this
  exact this.2.2 c.1 (by simp) c.1 (List.mem_map_of_mem hc) rfl

theorem root_ne {r s : Root} (hrs : s ≠ r) (xs : List (Nat × T)) : Loc.root s ≠ loc (.root r) xs := by
  rcases loc_cases (Loc.root r) xs with ⟨_, h2⟩ | ⟨us, a, _, h2⟩ <;> rw [h2]
  · exact fun e => hrs (Loc.root.inj e)
  · exact fun e => nomatch e

theorem root_ne_of_ne_nil {r s : Root} {xs : List (Nat × T)} (hx : xs ≠ []) : Loc.root s ≠ loc (.root r) xs := by
  rcases loc_cases (Loc.root r) xs with ⟨h1, _⟩ | ⟨us, a, _, h2⟩
  · exact absurd h1 hx
  · rw [h2]; exact fun e => nomatch e

end Verif.SL
