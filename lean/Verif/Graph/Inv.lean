import Verif.Graph.Spec
import Verif.Graph.Tab
import Mathlib.Data.Finset.Card
import Mathlib.Algebra.BigOperators.Group.Finset.Basic
import Mathlib.Algebra.Order.BigOperators.Group.Finset
/-
Invariant of the depth-first search.  The stack is given by its height `k` and a function `A`, the ranks by a function
`rk`; `path` lists the positions on the stack from the current one to the root of the search tree.
-/
namespace Verif.Graph
open Relation

variable {n : Nat} {G : Nat → List Nat}

/-- edges, for the edge lists as a function -/
def Arc (n : Nat) (G : Nat → List Nat) (x y : Nat) : Prop := x < n ∧ y ∈ G x

/-- `path` goes from a position to position 0 by parents -/
def IsPath (A : Nat → Info) : List Nat → Prop
  | [] => True
  | [c] => c = 0
  | c :: p :: l => (A c).parent = p ∧ 0 < c ∧ IsPath A (p :: l)

theorem IsPath.congr {A A' : Nat → Info} : ∀ {path : List Nat}, (∀ q ∈ path, (A' q).parent = (A q).parent) → IsPath A path → IsPath A' path
  | [], _, _ => trivial
  | [_], _, h => h
  | c :: p :: l, hq, h => ⟨by rw [hq c List.mem_cons_self]; exact h.1, h.2.1,
      IsPath.congr (fun q hm => hq q (List.mem_cons_of_mem _ hm)) h.2.2⟩

structure TInv (n : Nat) (G : Nat → List Nat) (k : Nat) (A : Nat → Info) (rk : Nat → Nat) (count : Nat) (path : List Nat) : Prop where
  good : ∀ v < n, ∀ y ∈ G v, y < n
  vlt : ∀ j < k, (A j).v < n
  rlt : ∀ j < k, 1 ≤ rk (A j).v ∧ rk (A j).v < count
  incr : ∀ i j, i < j → j < k → rk (A i).v < rk (A j).v
  cover : ∀ v < n, rk v = 0 ∨ rk v = n + 1 ∨ ∃ j < k, (A j).v = v
  cnt : count ≤ ((Finset.range n).filter (fun v => rk v ≠ 0)).card + 1
  par : ∀ j < k, 0 < j → (A j).parent < j ∧ Arc n G (A (A j).parent).v (A j).v
  par0 : 0 < k → (A 0).parent = n
  isPath : IsPath A path
  pathlt : ∀ q ∈ path, q < k
  empty : path = [] → k = 0
  stack : ∀ q ∈ path, ∀ j, q < j → j < k → q ≤ (A j).parent
  nle : ∀ j < k, (A j).next ≤ (G (A j).v).length
  edges : ∀ j < k, ∀ (e y : Nat), e < (A j).next → (G (A j).v)[e]? = some y → rk y ≠ 0 ∧ (A j).min ≤ rk y
  minw : ∀ j < k, ∃ i ≤ j, (A j).min = rk (A i).v ∧ ReflTransGen (Arc n G) (A j).v (A i).v
  off : ∀ j < k, j ∉ path → (A j).next = (G (A j).v).length ∧ (A j).min < rk (A j).v ∧ (A (A j).parent).min ≤ (A j).min
  closed : ∀ v < n, rk v = n + 1 → ∀ y ∈ G v, rk y = n + 1

variable {k : Nat} {A : Nat → Info} {rk : Nat → Nat} {count : Nat} {c : Nat} {path rest : List Nat}

theorem TInv.count_le (h : TInv n G k A rk count path) : count ≤ n + 1 := by
  have := h.cnt
  have h2 : ((Finset.range n).filter (fun v => rk v ≠ 0)).card ≤ (Finset.range n).card := Finset.card_filter_le _ _
  rw [Finset.card_range] at h2
  omega

theorem TInv.count_lt (h : TInv n G k A rk count path) {y : Nat} (hy : y < n) (h0 : rk y = 0) : count ≤ n := by
  have := h.cnt
  have h2 : ((Finset.range n).filter (fun v => rk v ≠ 0)).card < (Finset.range n).card := by
    apply Finset.card_lt_card
    refine ⟨Finset.filter_subset _ _, fun hs => ?_⟩
    have := hs (Finset.mem_range.2 hy)
    rw [Finset.mem_filter] at this
    exact this.2 h0
  rw [Finset.card_range] at h2
  omega

theorem TInv.pos_lt (h : TInv n G k A rk count path) {j : Nat} (hj : j < k) : j < n := by
  have key : ∀ j < k, j < rk (A j).v := by
    intro j
    induction j with
    | zero => intro hj; exact (h.rlt 0 hj).1
    | succ j ih =>
      intro hj
      have h1 := ih (by omega)
      have h2 := h.incr j (j+1) (by omega) hj
      omega
  have h1 := key j hj
  have h2 := (h.rlt j hj).2
  have := h.count_le
  omega

theorem TInv.inj (h : TInv n G k A rk count path) {i j : Nat} (hi : i < k) (hj : j < k) (he : rk (A i).v = rk (A j).v) : i = j := by
  rcases Nat.lt_trichotomy i j with h1 | h1 | h1
  · have := h.incr i j h1 hj; omega
  · exact h1
  · have := h.incr j i h1 hi; omega

theorem TInv.le_of_rk (h : TInv n G k A rk count path) {i j : Nat} (hj : j < k) (he : rk (A i).v ≤ rk (A j).v) : i < k → i ≤ j := by
  intro hi
  by_contra hn
  have := h.incr j i (by omega) hi
  omega

theorem TInv.mle (h : TInv n G k A rk count path) {j : Nat} (hj : j < k) : (A j).min ≤ rk (A j).v := by
  obtain ⟨i, hi, he, -⟩ := h.minw j hj
  rw [he]
  by_cases hij : i = j
  · rw [hij]
  · exact (h.incr i j (by omega) hj).le

/-- `rk` of an active vertex is neither 0 nor infinity -/
theorem TInv.active (h : TInv n G k A rk count path) {j : Nat} (hj : j < k) : rk (A j).v ≠ 0 ∧ rk (A j).v ≠ n + 1 ∧ rk (A j).v ≤ n := by
  have h1 := h.rlt j hj
  have h2 := h.count_le
  omega

theorem TInv.rest_lt (h : TInv n G k A rk count (c :: rest)) : ∀ q ∈ rest, q < c := by
  have key : ∀ (l : List Nat) (c : Nat), IsPath A (c :: l) → (∀ q ∈ c :: l, q < k) → ∀ q ∈ l, q < c := by
    intro l
    induction l with
    | nil => intro c _ _ q hq; simp at hq
    | cons p l ih =>
      intro c hp hk q hq
      have h1 := (h.par c (hk c List.mem_cons_self) hp.2.1).1
      rw [hp.1] at h1
      rcases List.mem_cons.1 hq with rfl | hq
      · exact h1
      · have := ih p hp.2.2 (fun q hq => hk q (List.mem_cons_of_mem _ hq)) q hq
        omega
  exact key rest c h.isPath h.pathlt

/-- position 0 is on the path -/
theorem TInv.zero_mem (h : TInv n G k A rk count (c :: rest)) : 0 ∈ c :: rest := by
  have key : ∀ (l : List Nat) (c : Nat), IsPath A (c :: l) → 0 ∈ c :: l := by
    intro l
    induction l with
    | nil => intro c hc; rw [show c = 0 from hc]; simp
    | cons p l ih => intro c hc; exact List.mem_cons_of_mem _ (ih p hc.2.2)
  exact key rest c h.isPath

theorem TInv.off_pos (h : TInv n G k A rk count (c :: rest)) {j : Nat} (hj : j ∉ c :: rest) : 0 < j := by
  by_contra hn
  have : j = 0 := by omega
  exact hj (this ▸ h.zero_mem)

/-! ### Case of an edge leading to a vertex not seen before -/

theorem TInv.fresh (h : TInv n G k A rk count (c :: rest)) {y : Nat} (hn : (G (A c).v)[(A c).next]? = some y) (h0 : rk y = 0) :
    TInv n G (k + 1) (Function.update (Function.update A c { A c with next := (A c).next + 1 }) k ⟨y, c, 0, count⟩)
      (Function.update rk y count) (count + 1) (k :: c :: rest) := by
  have hc : c < k := h.pathlt c List.mem_cons_self
  have hyG : y ∈ G (A c).v := List.mem_of_getElem? hn
  have hy : y < n := h.good _ (h.vlt c hc) y hyG
  have hcn := h.count_lt hy h0
  have hne : ∀ j < k, (A j).v ≠ y := fun j hj he => by have := (h.rlt j hj).1; rw [he] at this; omega
  have hA : ∀ j < k, Function.update (Function.update A c { A c with next := (A c).next + 1 }) k ⟨y, c, 0, count⟩ j =
      if j = c then { A c with next := (A c).next + 1 } else A j := by
    intro j hj
    rw [Function.update_of_ne (by omega)]
    by_cases hjc : j = c
    · rw [hjc, Function.update_self, if_pos rfl]
    · rw [Function.update_of_ne hjc, if_neg hjc]
  have hk : Function.update (Function.update A c { A c with next := (A c).next + 1 }) k ⟨y, c, 0, count⟩ k = ⟨y, c, 0, count⟩ :=
    Function.update_self ..
  generalize Function.update (Function.update A c { A c with next := (A c).next + 1 }) k ⟨y, c, 0, count⟩ = B at hA hk
  have hv : ∀ j < k, (B j).v = (A j).v := by
    intro j hj; rw [hA j hj]; split
    · rename_i e; rw [e]
    · rfl
  have hp : ∀ j < k, (B j).parent = (A j).parent := by
    intro j hj; rw [hA j hj]; split
    · rename_i e; rw [e]
    · rfl
  have hm : ∀ j < k, (B j).min = (A j).min := by
    intro j hj; rw [hA j hj]; split
    · rename_i e; rw [e]
    · rfl
  have hr : ∀ v, v ≠ y → Function.update rk y count v = rk v := fun v hv => Function.update_of_ne hv _ _
  have hry : Function.update rk y count y = count := Function.update_self ..
  have hcount : 1 ≤ count := by have := h.rlt c hc; omega
  generalize Function.update rk y count = rk' at hr hry
  have hrv : ∀ j < k, rk' (B j).v = rk (A j).v := fun j hj => by rw [hv j hj, hr _ (hne j hj)]
  have hrk : rk' (B k).v = count := by rw [hk]; exact hry
  refine ⟨h.good, ?_, ?_, ?_, ?_, ?_, ?_, ?_, ?_, ?_, by simp, ?_, ?_, ?_, ?_, ?_, ?_⟩
  · intro j hj
    by_cases hjk : j = k
    · rw [hjk, hk]; exact hy
    · rw [hv j (by omega)]; exact h.vlt j (by omega)
  · intro j hj
    by_cases hjk : j = k
    · rw [hjk, hrk]; omega
    · rw [hrv j (by omega)]; have := h.rlt j (by omega); omega
  · intro i j hij hj
    rw [hrv i (by omega)]
    by_cases hjk : j = k
    · rw [hjk, hrk]; exact (h.rlt i (by omega)).2
    · rw [hrv j (by omega)]; exact h.incr i j hij (by omega)
  · intro v hvn
    by_cases hvy : v = y
    · right; right; exact ⟨k, by omega, by rw [hk, hvy]⟩
    · rw [hr v hvy]
      rcases h.cover v hvn with h1 | h1 | ⟨j, h1, h2⟩
      · exact .inl h1
      · exact .inr (.inl h1)
      · exact .inr (.inr ⟨j, by omega, by rw [hv j h1, h2]⟩)
  · have : (Finset.range n).filter (fun v => rk' v ≠ 0) = Insert.insert y ((Finset.range n).filter (fun v => rk v ≠ 0)) := by
      ext v
      rw [Finset.mem_insert, Finset.mem_filter, Finset.mem_filter, Finset.mem_range]
      by_cases hvy : v = y
      · rw [hvy, hry]; simp [hy]; omega
      · rw [hr v hvy]; simp [hvy]
    rw [this, Finset.card_insert_of_notMem (by simp [h0])]
    have := h.cnt
    omega
  · intro j hj h0j
    by_cases hjk : j = k
    · subst hjk
      rw [hk]
      exact ⟨hc, by rw [hv c hc]; exact ⟨h.vlt c hc, hyG⟩⟩
    · have := h.par j (by omega) h0j
      rw [hp j (by omega)]
      exact ⟨this.1, by rw [hv _ (by omega), hv _ (by omega)]; exact this.2⟩
  · intro _
    rw [hp 0 (by omega)]; exact h.par0 (by omega)
  · refine ⟨by rw [hk], by omega, ?_⟩
    exact IsPath.congr (fun q hq => hp q (h.pathlt q hq)) h.isPath
  · intro q hq
    rcases List.mem_cons.1 hq with rfl | hq
    · omega
    · have := h.pathlt q hq; omega
  · intro q hq j hqj hj
    rcases List.mem_cons.1 hq with rfl | hq
    · omega
    · by_cases hjk : j = k
      · rw [hjk, hk]
        rcases List.mem_cons.1 hq with rfl | hq
        · exact Nat.le_refl _
        · exact (h.rest_lt q hq).le
      · rw [hp j (by omega)]; exact h.stack q hq j hqj (by omega)
  · intro j hj
    by_cases hjk : j = k
    · rw [hjk, hk]; simp
    · rw [hA j (by omega)]
      split
      · simp only
        exact (List.getElem?_eq_some_iff.1 hn).1
      · exact h.nle j (by omega)
  · intro j hj e z he hz
    by_cases hjk : j = k
    · rw [hjk, hk] at he; simp at he
    · rw [hv j (by omega)] at hz
      rw [hm j (by omega)]
      have hml := h.mle (j := j) (by omega)
      have hrl := h.rlt j (by omega)
      by_cases hzy : z = y
      · rw [hzy, hry]; omega
      · rw [hr z hzy]
        by_cases hjc : j = c
        · subst hjc
          rw [hA j hc, if_pos rfl] at he
          simp only at he
          by_cases hen : e = (A j).next
          · subst hen; rw [hn] at hz; cases hz; exact absurd rfl hzy
          · exact h.edges j hc e z (by omega) hz
        · rw [hA j (by omega), if_neg hjc] at he
          exact h.edges j (by omega) e z he hz
  · intro j hj
    by_cases hjk : j = k
    · refine ⟨j, Nat.le_refl _, ?_, .refl⟩
      rw [hjk, hrk, hk]
    · obtain ⟨i, h1, h2, h3⟩ := h.minw j (by omega)
      exact ⟨i, h1, by rw [hm j (by omega), hrv i (by omega)]; exact h2, by rw [hv j (by omega), hv i (by omega)]; exact h3⟩
  · intro j hj hjp
    rw [List.mem_cons, not_or] at hjp
    have hjk : j < k := by omega
    obtain ⟨h1, h2, h3⟩ := h.off j hjk hjp.2
    have hjc : j ≠ c := fun e => hjp.2 (by rw [e]; exact List.mem_cons_self)
    have hpl := (h.par j hjk (h.off_pos hjp.2)).1
    rw [hv j hjk, hm j hjk, hp j hjk, hr _ (hne j hjk), hm _ (by omega)]
    rw [hA j hjk, if_neg hjc]
    exact ⟨h1, h2, h3⟩
  · intro v hv' hrv' z hz
    have hvy : v ≠ y := fun e => by rw [e, hry] at hrv'; omega
    rw [hr v hvy] at hrv'
    have := h.closed v hv' hrv' z hz
    have hzy : z ≠ y := fun e => by rw [e, h0] at this; omega
    rw [hr z hzy]; exact this

/-! ### Case of an edge leading to a vertex seen before -/

theorem TInv.cross (h : TInv n G k A rk count (c :: rest)) {y : Nat} (hn : (G (A c).v)[(A c).next]? = some y) (h0 : rk y ≠ 0)
    {m : Nat} (hm : m = if rk y < (A c).min then rk y else (A c).min) :
    TInv n G k (Function.update A c { A c with next := (A c).next + 1, min := m }) rk count (c :: rest) := by
  have hc : c < k := h.pathlt c List.mem_cons_self
  have hyG : y ∈ G (A c).v := List.mem_of_getElem? hn
  have hy : y < n := h.good _ (h.vlt c hc) y hyG
  have hmle : m ≤ (A c).min ∧ m ≤ rk y := by rw [hm]; split <;> omega
  have hA : ∀ j, Function.update A c { A c with next := (A c).next + 1, min := m } j =
      if j = c then { A c with next := (A c).next + 1, min := m } else A j := fun j => by
    by_cases e : j = c
    · rw [e, Function.update_self, if_pos rfl]
    · rw [Function.update_of_ne e, if_neg e]
  generalize Function.update A c { A c with next := (A c).next + 1, min := m } = B at hA
  have hv : ∀ j, (B j).v = (A j).v := by
    intro j; rw [hA j]; split
    · rename_i e; rw [e]
    · rfl
  have hp : ∀ j, (B j).parent = (A j).parent := by
    intro j; rw [hA j]; split
    · rename_i e; rw [e]
    · rfl
  have hml : ∀ j, (B j).min ≤ (A j).min := by
    intro j; rw [hA j]; split
    · rename_i e; rw [e]; exact hmle.1
    · exact Nat.le_refl _
  refine ⟨h.good, ?_, ?_, ?_, ?_, h.cnt, ?_, ?_, ?_, h.pathlt, by simp, ?_, ?_, ?_, ?_, ?_, h.closed⟩
  · intro j hj; rw [hv]; exact h.vlt j hj
  · intro j hj; rw [hv]; exact h.rlt j hj
  · intro i j hij hj; rw [hv, hv]; exact h.incr i j hij hj
  · intro v hvn
    rcases h.cover v hvn with h1 | h1 | ⟨j, h1, h2⟩
    · exact .inl h1
    · exact .inr (.inl h1)
    · exact .inr (.inr ⟨j, h1, by rw [hv, h2]⟩)
  · intro j hj h0j
    rw [hp, hv, hv]; exact h.par j hj h0j
  · intro h0k; rw [hp]; exact h.par0 h0k
  · exact IsPath.congr (fun q _ => hp q) h.isPath
  · intro q hq j hqj hj; rw [hp]; exact h.stack q hq j hqj hj
  · intro j hj
    rw [hv, hA]
    split
    · rename_i e
      simp only
      rw [e]
      exact (List.getElem?_eq_some_iff.1 hn).1
    · exact h.nle j hj
  · intro j hj e z he hz
    rw [hv] at hz
    by_cases hjc : j = c
    · subst hjc
      have hBm : (B j).min = m := by rw [hA, if_pos rfl]
      have hBn : (B j).next = (A j).next + 1 := by rw [hA, if_pos rfl]
      rw [hBn] at he
      rw [hBm]
      by_cases hen : e = (A j).next
      · subst hen; rw [hn] at hz; cases hz; exact ⟨h0, hmle.2⟩
      · have := h.edges j hc e z (by omega) hz
        exact ⟨this.1, by omega⟩
    · rw [hA j, if_neg hjc] at he ⊢
      exact h.edges j hj e z he hz
  · intro j hj
    by_cases hjc : j = c
    · subst hjc
      have hBm : (B j).min = m := by rw [hA, if_pos rfl]
      rw [hBm, hv]
      by_cases hlt : rk y < (A j).min
      · rw [if_pos hlt] at hm
        have hmj := h.mle hc
        have hact := h.active hc
        rcases h.cover y hy with h1 | h1 | ⟨i, h1, h2⟩
        · exact absurd h1 h0
        · omega
        · refine ⟨i, ?_, by rw [hv, h2, hm], by rw [hv, h2]; exact .single ⟨h.vlt j hc, hyG⟩⟩
          exact h.le_of_rk hc (by rw [h2]; omega) h1
      · rw [if_neg hlt] at hm
        obtain ⟨i, h1, h2, h3⟩ := h.minw j hc
        exact ⟨i, h1, by rw [hm, hv, h2], by rw [hv]; exact h3⟩
    · obtain ⟨i, h1, h2, h3⟩ := h.minw j hj
      refine ⟨i, h1, ?_, by rw [hv, hv]; exact h3⟩
      rw [hv]
      rw [hA, if_neg hjc]; exact h2
  · intro j hj hjp
    have hjc : j ≠ c := fun e => hjp (by rw [e]; exact List.mem_cons_self)
    obtain ⟨h1, h2, h3⟩ := h.off j hj hjp
    have hAB : B j = A j := by rw [hA, if_neg hjc]
    rw [hAB]
    refine ⟨h1, h2, ?_⟩
    have := hml (A j).parent
    omega

/-! ### Case of a vertex that matures without heading a component -/

theorem TInv.mature (h : TInv n G k A rk count (c :: rest)) (hn : (A c).next = (G (A c).v).length) (hne : (A c).min ≠ rk (A c).v) :
    ∃ p l, rest = p :: l ∧ (A c).parent = p ∧ p < k ∧
    ∀ m, m = (if (A c).min < (A p).min then (A c).min else (A p).min) →
    TInv n G k (Function.update A p { A p with min := m }) rk count rest := by
  have hc : c < k := h.pathlt c List.mem_cons_self
  have hc0 : c ≠ 0 := by
    rintro rfl
    obtain ⟨i, h1, h2, -⟩ := h.minw 0 hc
    rw [show i = 0 by omega] at h2
    exact hne h2
  match rest, h with
  | [], h => exact absurd h.isPath hc0
  | p :: l, h =>
  have hpath := h.isPath
  have hpar := hpath.1
  have hp' := h.par c hc (by omega)
  rw [hpar] at hp'
  refine ⟨p, l, rfl, hpar, by omega, ?_⟩
  intro m hm
  have hmle : m ≤ (A c).min ∧ m ≤ (A p).min := by rw [hm]; split <;> omega
  have hA : ∀ j, Function.update A p { A p with min := m } j = if j = p then { A p with min := m } else A j := fun j => by
    by_cases e : j = p
    · rw [e, Function.update_self, if_pos rfl]
    · rw [Function.update_of_ne e, if_neg e]
  generalize Function.update A p { A p with min := m } = B at hA
  have hv : ∀ j, (B j).v = (A j).v := by
    intro j; rw [hA j]; split
    · rename_i e; rw [e]
    · rfl
  have hp : ∀ j, (B j).parent = (A j).parent := by
    intro j; rw [hA j]; split
    · rename_i e; rw [e]
    · rfl
  have hnx : ∀ j, (B j).next = (A j).next := by
    intro j; rw [hA j]; split
    · rename_i e; rw [e]
    · rfl
  have hml : ∀ j, (B j).min ≤ (A j).min := by
    intro j; rw [hA j]; split
    · rename_i e; rw [e]; exact hmle.2
    · exact Nat.le_refl _
  refine ⟨h.good, ?_, ?_, ?_, ?_, h.cnt, ?_, ?_, ?_, ?_, by simp, ?_, ?_, ?_, ?_, ?_, h.closed⟩
  · intro j hj; rw [hv]; exact h.vlt j hj
  · intro j hj; rw [hv]; exact h.rlt j hj
  · intro i j hij hj; rw [hv, hv]; exact h.incr i j hij hj
  · intro v hvn
    rcases h.cover v hvn with h1 | h1 | ⟨j, h1, h2⟩
    · exact .inl h1
    · exact .inr (.inl h1)
    · exact .inr (.inr ⟨j, h1, by rw [hv, h2]⟩)
  · intro j hj h0j
    rw [hp, hv, hv]; exact h.par j hj h0j
  · intro h0k; rw [hp]; exact h.par0 h0k
  · exact IsPath.congr (fun q _ => hp q) hpath.2.2
  · intro q hq; exact h.pathlt q (List.mem_cons_of_mem _ hq)
  · intro q hq j hqj hj; rw [hp]; exact h.stack q (List.mem_cons_of_mem _ hq) j hqj hj
  · intro j hj; rw [hv, hnx]; exact h.nle j hj
  · intro j hj e z he hz
    rw [hv] at hz
    rw [hnx] at he
    have := h.edges j hj e z he hz
    have := hml j
    exact ⟨by tauto, by omega⟩
  · intro j hj
    by_cases hjp : j = p
    · subst hjp
      have hBm : (B j).min = m := by rw [hA, if_pos rfl]
      rw [hBm, hv]
      by_cases hlt : (A c).min < (A j).min
      · rw [if_pos hlt] at hm
        obtain ⟨i, h1, h2, h3⟩ := h.minw c hc
        have hmj := h.mle hj
        refine ⟨i, h.le_of_rk hj (by omega) (by omega), by rw [hm, hv, h2], ?_⟩
        rw [hv]
        exact .head hp'.2 h3
      · rw [if_neg hlt] at hm
        obtain ⟨i, h1, h2, h3⟩ := h.minw j hj
        exact ⟨i, h1, by rw [hm, hv, h2], by rw [hv]; exact h3⟩
    · obtain ⟨i, h1, h2, h3⟩ := h.minw j hj
      refine ⟨i, h1, ?_, by rw [hv, hv]; exact h3⟩
      rw [hv]
      rw [hA, if_neg hjp]; exact h2
  · intro j hj hjp
    have hjp' : j ≠ p := fun e => hjp (by rw [e]; exact List.mem_cons_self)
    have hAB : B j = A j := by rw [hA, if_neg hjp']
    rw [hAB]
    by_cases hjc : j = c
    · subst hjc
      refine ⟨hn, lt_of_le_of_ne (h.mle hc) hne, ?_⟩
      rw [hpar, hA, if_pos rfl]; exact hmle.1
    · obtain ⟨h1, h2, h3⟩ := h.off j hj (by rw [List.mem_cons, not_or]; exact ⟨hjc, hjp⟩)
      refine ⟨h1, h2, ?_⟩
      have := hml (A j).parent
      omega

/-! ### Case of a vertex heading a component -/

/-- the vertices of the component -/
def Comp (k : Nat) (A : Nat → Info) (c v : Nat) : Prop := ∃ j, c ≤ j ∧ j < k ∧ (A j).v = v

/-- what one knows of the component -/
structure IsComp (n : Nat) (G : Nat → List Nat) (k : Nat) (A : Nat → Info) (rk : Nat → Nat) (c : Nat) : Prop where
  into : ∀ v, Comp k A c v → ReflTransGen (Arc n G) (A c).v v
  back : ∀ v, Comp k A c v → ReflTransGen (Arc n G) v (A c).v
  edge : ∀ v, Comp k A c v → ∀ y ∈ G v, Comp k A c y ∨ rk y = n + 1

theorem TInv.minge (h : TInv n G k A rk count (c :: rest)) (hm : (A c).min = rk (A c).v) (j : Nat) (hcj : c ≤ j) (hj : j < k) :
    rk (A c).v ≤ (A j).min := by
  induction j using Nat.strong_induction_on with
  | _ j ih =>
    by_cases he : j = c
    · rw [he, hm]
    · have hoff : j ∉ c :: rest := by
        rw [List.mem_cons, not_or]
        exact ⟨he, fun hr => by have := h.rest_lt j hr; omega⟩
      obtain ⟨-, -, h3⟩ := h.off j hj hoff
      have h4 := h.stack c List.mem_cons_self j (by omega) hj
      have h5 := (h.par j hj (by omega)).1
      have := ih _ h5 h4 (by omega)
      omega

theorem TInv.isComp (h : TInv n G k A rk count (c :: rest)) (hn : (A c).next = (G (A c).v).length) (hm : (A c).min = rk (A c).v) :
    IsComp n G k A rk c := by
  have hc : c < k := h.pathlt c List.mem_cons_self
  have hoff : ∀ j, c < j → j ∉ c :: rest := by
    intro j hj
    rw [List.mem_cons, not_or]
    exact ⟨by omega, fun hr => by have := h.rest_lt j hr; omega⟩
  refine ⟨?_, ?_, ?_⟩
  · rintro v ⟨j, hcj, hj, rfl⟩
    induction j using Nat.strong_induction_on with
    | _ j ih =>
      by_cases he : j = c
      · rw [he]
      · have h4 := h.stack c List.mem_cons_self j (by omega) hj
        have h5 := h.par j hj (by omega)
        exact (ih _ h5.1 h4 (by omega)).tail h5.2
  · rintro v ⟨j, hcj, hj, rfl⟩
    induction j using Nat.strong_induction_on with
    | _ j ih =>
      by_cases he : j = c
      · rw [he]
      · obtain ⟨-, h2, -⟩ := h.off j hj (hoff j (by omega))
        have h3 := h.minge hm j hcj hj
        obtain ⟨i, hi, h4, h5⟩ := h.minw j hj
        rw [h4] at h2 h3
        have h6 : i < j := by
          by_contra hn
          have : i = j := by omega
          rw [this] at h2; omega
        have h7 : c ≤ i := h.le_of_rk (by omega) h3 hc
        exact h5.trans (ih i h6 h7 (by omega))
  · rintro v ⟨j, hcj, hj, rfl⟩ y hy
    have hfull : (A j).next = (G (A j).v).length := by
      by_cases he : j = c
      · rw [he]; exact hn
      · exact (h.off j hj (hoff j (by omega))).1
    obtain ⟨e, he, hey⟩ := List.getElem_of_mem hy
    obtain ⟨h1, h2⟩ := h.edges j hj e y (by omega) (by rw [← hey]; exact List.getElem?_eq_getElem he)
    have h3 := h.minge hm j hcj hj
    rcases h.cover y (h.good _ (h.vlt j hj) y hy) with h4 | h4 | ⟨i, h4, h5⟩
    · exact absurd h4 h1
    · exact .inr h4
    · refine .inl ⟨i, ?_, h4, h5⟩
      exact h.le_of_rk h4 (by rw [h5]; omega) hc

open Classical in
/-- ranks after settling -/
noncomputable def settled (n k : Nat) (A : Nat → Info) (c : Nat) (f : Nat → Nat) (x : Nat) : Nat → Nat :=
  fun v => if Comp k A c v then x else f v

theorem TInv.settle (h : TInv n G k A rk count (c :: rest)) (hn : (A c).next = (G (A c).v).length) (hm : (A c).min = rk (A c).v)
    (rk' : Nat → Nat) (hC : ∀ v, Comp k A c v → rk' v = n + 1) (hN : ∀ v, ¬ Comp k A c v → rk' v = rk v) :
    TInv n G c A rk' count rest ∧ (rest = [] → (A c).parent = n) ∧ (∀ p l, rest = p :: l → (A c).parent = p) := by
  have hc : c < k := h.pathlt c List.mem_cons_self
  have hI := h.isComp hn hm
  have hlow : ∀ j < c, ¬ Comp k A c (A j).v := by
    rintro j hj ⟨i, h1, h2, h3⟩
    have := h.inj (i := j) (j := i) (by omega) h2 (by rw [h3])
    omega
  have hrk : ∀ j < c, rk' (A j).v = rk (A j).v := fun j hj => hN _ (hlow j hj)
  have hge : ∀ v, rk v ≠ 0 → v < n → rk' v ≠ 0 ∧ rk v ≤ rk' v := by
    intro v h0 hvn
    by_cases hcv : Comp k A c v
    · rw [hC v hcv]
      obtain ⟨j, -, hj, rfl⟩ := hcv
      have := h.active hj
      omega
    · rw [hN v hcv]; exact ⟨h0, Nat.le_refl _⟩
  refine ⟨⟨h.good, ?_, ?_, ?_, ?_, ?_, ?_, ?_, ?_, ?_, ?_, ?_, ?_, ?_, ?_, ?_, ?_⟩, ?_, ?_⟩
  · intro j hj; exact h.vlt j (by omega)
  · intro j hj; rw [hrk j hj]; exact h.rlt j (by omega)
  · intro i j hij hj; rw [hrk i (by omega), hrk j hj]; exact h.incr i j hij (by omega)
  · intro v hv
    by_cases hcv : Comp k A c v
    · exact .inr (.inl (hC v hcv))
    · rw [hN v hcv]
      rcases h.cover v hv with h1 | h1 | ⟨j, h1, h2⟩
      · exact .inl h1
      · exact .inr (.inl h1)
      · refine .inr (.inr ⟨j, ?_, h2⟩)
        by_contra hge
        exact hcv ⟨j, by omega, h1, h2⟩
  · refine h.cnt.trans (Nat.add_le_add_right (Finset.card_le_card fun v hv => ?_) 1)
    rw [Finset.mem_filter, Finset.mem_range] at hv ⊢
    exact ⟨hv.1, (hge v hv.2 hv.1).1⟩
  · intro j hj h0; exact h.par j (by omega) h0
  · intro h0; exact h.par0 (by omega)
  · match rest, h.isPath with
    | [], _ => trivial
    | p :: l, hp => exact hp.2.2
  · exact h.rest_lt
  · intro he
    subst he
    exact h.isPath
  · intro q hq j hqj hj; exact h.stack q (List.mem_cons_of_mem _ hq) j hqj (by omega)
  · intro j hj; exact h.nle j (by omega)
  · intro j hj e y he hy
    have hyn := h.good _ (h.vlt j (by omega)) y (List.mem_of_getElem? hy)
    obtain ⟨h1, h2⟩ := h.edges j (by omega) e y he hy
    have := hge y h1 hyn
    exact ⟨this.1, by omega⟩
  · intro j hj
    obtain ⟨i, h1, h2, h3⟩ := h.minw j (by omega)
    exact ⟨i, h1, by rw [hrk i (by omega)]; exact h2, h3⟩
  · intro j hj hjr
    rw [hrk j hj]
    exact h.off j (by omega) (by rw [List.mem_cons, not_or]; exact ⟨by omega, hjr⟩)
  · intro v hv hrv y hy
    by_cases hcv : Comp k A c v
    · rcases hI.edge v hcv y hy with h1 | h1
      · exact hC y h1
      · by_cases hcy : Comp k A c y
        · exact hC y hcy
        · rw [hN y hcy]; exact h1
    · rw [hN v hcv] at hrv
      have h1 := h.closed v hv hrv y hy
      by_cases hcy : Comp k A c y
      · exact hC y hcy
      · rw [hN y hcy]; exact h1
  · rintro rfl
    have : c = 0 := h.isPath
    rw [this]; exact h.par0 (by omega)
  · rintro p l rfl
    exact h.isPath.1

end Verif.Graph
