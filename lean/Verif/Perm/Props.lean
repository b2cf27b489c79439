import Verif.Perm.Lemmas
import Mathlib.Tactic.Ring
import Mathlib.Tactic.IntervalCases
/-
C26: permutations form a group acting on vectors.

`IsPerm n p` (Lemmas.lean) says that the list `p` is a rearrangement of `0,…,n-1`, and
`IsPerm.toPerm` is that permutation as an element of Mathlib's group of permutations of `Fin n`.
-/
namespace Verif.Perm
open Verif

variable {α : Type} {n : Nat} {p q : List Nat}

/-- non-trivial instance of the hypotheses: a permutation of three numbers -/
theorem isPerm_example : IsPerm 4 [2, 0, 3, 1] := by unfold IsPerm; decide

theorem IsPerm.get? (h : IsPerm n p) {i : Nat} (hi : i < n) : ∃ j, p[i]? = some j ∧ j < n := by
  have := h.length ▸ hi
  exact ⟨p[i], List.getElem?_eq_getElem this, h.lt _⟩

theorem IsPerm.surj (h : IsPerm n p) {j : Nat} (hj : j < n) : ∃ i, i < n ∧ p[i]? = some j := by
  obtain ⟨i, hi, e⟩ := List.getElem_of_mem (h.mem.2 hj)
  exact ⟨i, h.length ▸ hi, by rw [List.getElem?_eq_getElem hi, e]⟩

theorem IsPerm.inj? (h : IsPerm n p) {i j k : Nat} (hi : p[i]? = some k) (hj : p[j]? = some k) : i = j := by
  obtain ⟨h1, e1⟩ := List.getElem?_eq_some_iff.1 hi
  obtain ⟨h2, e2⟩ := List.getElem?_eq_some_iff.1 hj
  exact h.inj h1 h2 (e1.trans e2.symm)

theorem isPerm_of? (hl : p.length = n) (hlt : ∀ i, i < n → ∃ j, p[i]? = some j ∧ j < n)
    (hinj : ∀ i j k : Nat, p[i]? = some k → p[j]? = some k → i = j) : IsPerm n p := by
  refine isPerm_of hl ?_ ?_
  · intro x hx
    obtain ⟨i, hi, e⟩ := List.getElem_of_mem hx
    obtain ⟨j, h1, h2⟩ := hlt i (hl ▸ hi)
    rw [List.getElem?_eq_getElem hi, e] at h1
    obtain rfl := Option.some.inj h1
    exact h2
  · rw [List.nodup_iff_getElem?_ne_getElem?]
    intro i j hij hj e
    rw [List.getElem?_eq_getElem hj] at e
    have := hinj i j _ e (List.getElem?_eq_getElem hj)
    omega

theorem Vec.get_of {l : List α} {i : Nat} {x : α} (h : l[i]? = some x) : Vec.get l i = .ok x := by rw [Vec.get, h]

/-! ### identity, inverse, composition -/

theorem identLoop_spec (m : Nat) (v : List Nat) (hl : v.length = n) (hm : m ≤ n) (h : ∀ i, m ≤ i → i < n → v[i]? = some i) :
    ∃ v', identLoop m v = .ok v' ∧ v'.length = n ∧ ∀ i, i < n → v'[i]? = some i := by
  induction m generalizing v with
  | zero => exact ⟨v, rfl, hl, fun i hi => h i (by omega) hi⟩
  | succ m ih =>
    rw [identLoop, Vec.put_ok (by omega), Res.ok_bind]
    refine ih _ (by simpa using hl) (by omega) ?_
    intro i h1 h2
    by_cases c : m = i
    · subst c; rw [List.getElem?_set_self (by omega)]
    · rw [List.getElem?_set_ne c]; exact h i (by omega) h2

/-- C26: the identity permutation maps every `i` to itself. -/
theorem C26_identity (n : Nat) : ident n = .ok (List.range n) := by
  obtain ⟨v, h1, h2, h3⟩ := identLoop_spec n (List.replicate n 0) (by simp) le_rfl (fun i h1 h2 => by omega)
  rw [ident, h1]
  congr 1
  apply List.ext_getElem?
  intro i
  by_cases c : i < n
  · rw [h3 i c, List.getElem?_range c]
  · rw [List.getElem?_eq_none (by omega), List.getElem?_eq_none (by simp; omega)]

theorem invLoop_spec (h : IsPerm n p) (m : Nat) (v : List Nat) (hl : v.length = n) (hm : m ≤ n)
    (hv : ∀ i j : Nat, m ≤ i → p[i]? = some j → v[j]? = some i) :
    ∃ v', invLoop p m v = .ok v' ∧ v'.length = n ∧ ∀ i j : Nat, p[i]? = some j → v'[j]? = some i := by
  induction m generalizing v with
  | zero => exact ⟨v, rfl, hl, fun i j hi => hv i j (by omega) hi⟩
  | succ m ih =>
    obtain ⟨k, hk, hkn⟩ := h.get? (show m < n by omega)
    rw [invLoop, Vec.get_of hk, Res.ok_bind, Vec.put_ok (by omega), Res.ok_bind]
    refine ih _ (by simpa using hl) (by omega) ?_
    intro i j h1 h2
    by_cases c : k = j
    · subst c
      obtain rfl := h.inj? h2 hk
      rw [List.getElem?_set_self (by omega)]
    · rw [List.getElem?_set_ne c]
      refine hv i j ?_ h2
      rcases Nat.lt_or_ge i (m + 1) with e | e
      · obtain rfl : i = m := by omega
        rw [hk] at h2; exact absurd (Option.some.inj h2) c
      · exact e

/-- C26: the inverse constructor gives a permutation `q` with `q[p[i]]=i` and `p[q[j]]=j`. -/
theorem C26_inverse (h : IsPerm n p) : ∃ q, inverse p = .ok q ∧ IsPerm n q ∧ ∀ i j : Nat, p[i]? = some j ↔ q[j]? = some i := by
  obtain ⟨q, h1, h2, h3⟩ := invLoop_spec h p.length (List.replicate p.length 0) (by simp [h.length]) (by rw [h.length])
    (fun i j h1 h2 => by rw [List.getElem?_eq_none h1] at h2; cases h2)
  have hback : ∀ i j : Nat, q[j]? = some i → p[i]? = some j := by
    intro i j e
    obtain ⟨hj, _⟩ := List.getElem?_eq_some_iff.1 e
    obtain ⟨i', _, e'⟩ := h.surj (show j < n by omega)
    rw [h3 i' j e'] at e
    obtain rfl := Option.some.inj e
    exact e'
  refine ⟨q, h1, isPerm_of? h2 ?_ ?_, fun i j => ⟨h3 i j, hback i j⟩⟩
  · intro j hj
    obtain ⟨i, hi, e⟩ := h.surj hj
    exact ⟨i, h3 i j e, hi⟩
  · intro i j k e1 e2
    have a := hback k i e1
    have b := hback k j e2
    rw [a] at b; exact Option.some.inj b

example : inverse [2, 0, 3, 1] = .ok [1, 3, 0, 2] := by decide

theorem composeLoop_spec (b c : List Nat) (hb : ∀ x ∈ b, x < c.length) (off : Nat) (m j : Nat) (a : List Nat)
    (hm : j + m = b.length) (ha : off + b.length ≤ a.length) :
    ∃ a', composeLoop b c off m j a = .ok a' ∧ a'.length = a.length ∧
      (∀ i, j ≤ i → i < b.length → a'[i + off]? = b[i]?.bind (c[·]?)) ∧
      (∀ i, (i < j + off ∨ off + b.length ≤ i) → a'[i]? = a[i]?) := by
  induction m generalizing j a with
  | zero => exact ⟨a, rfl, rfl, fun i h1 h2 => by omega, fun _ _ => rfl⟩
  | succ m ih =>
    have hj : j < b.length := by omega
    have hx := hb _ (List.getElem_mem hj)
    rw [composeLoop, Vec.get_ok hj, Res.ok_bind, Vec.get_ok hx, Res.ok_bind, Vec.put_ok (by omega), Res.ok_bind]
    obtain ⟨a', h1, h2, h3, h4⟩ := ih (j + 1) (a.set (j + off) c[b[j]]) (by omega) (by simpa using ha)
    refine ⟨a', h1, by simpa using h2, ?_, ?_⟩
    · intro i hi hib
      by_cases e : i = j
      · subst e
        rw [h4 _ (.inl (by omega)), List.getElem?_set_self (by omega), List.getElem?_eq_getElem hj]
        simp [List.getElem?_eq_getElem hx]
      · exact h3 i (by omega) hib
    · intro i hi
      rw [h4 i (by omega), List.getElem?_set_ne (by omega)]

/-- C26: `compose(a,b,n)` replaces, in the positions from `n` on, `a[n+j]` by `a[n+b[j]]`, and changes
nothing else. -/
theorem C26_compose {m : Nat} {a b : List Nat} (hb : IsPerm m b) (off : Nat) (hl : off + m ≤ a.length) :
    ∃ a', compose a b off = .ok a' ∧ a'.length = a.length ∧
      (∀ i, i < m → a'[off + i]? = b[i]?.bind (fun j => a[off + j]?)) ∧
      (∀ i, (i < off ∨ off + m ≤ i) → a'[i]? = a[i]?) := by
  have hbl := hb.length
  obtain ⟨a', h1, h2, h3, h4⟩ := composeLoop_spec b ((a.drop off).take b.length)
    (fun x hx => by have := hb.mem.1 hx; simp; omega) off b.length 0 a (by omega) (by omega)
  rw [compose, if_pos (by omega)]
  refine ⟨a', h1, h2, ?_, fun i hi => h4 i (by omega)⟩
  intro i hi
  rw [Nat.add_comm, h3 i (by omega) (by omega)]
  obtain ⟨j, hj, hjm⟩ := hb.get? hi
  rw [hj]
  show ((a.drop off).take b.length)[j]? = a[off + j]?
  rw [List.getElem?_take_of_lt (by omega), List.getElem?_drop]

/-- C26: with equal sizes and `n=0`, `compose` is the product in the group of permutations. -/
theorem C26_compose_mul {a b : List Nat} (ha : IsPerm n a) (hb : IsPerm n b) :
    ∃ c, compose a b 0 = .ok c ∧ ∃ hc : IsPerm n c, hc.toPerm = ha.toPerm * hb.toPerm := by
  obtain ⟨c, h1, h2, h3, _⟩ := C26_compose hb 0 (by rw [ha.length]; omega)
  have hcl : c.length = n := by rw [h2, ha.length]
  have hget : ∀ i : Fin n, c[i.val]? = some (ha.toPerm (hb.toPerm i)).val := by
    intro i
    have := h3 i.val i.2
    simp only [Nat.zero_add] at this
    rw [this, List.getElem?_eq_getElem (by rw [hb.length]; exact i.2)]
    show a[(hb.toPerm i).val]? = _
    rw [List.getElem?_eq_getElem (by rw [ha.length]; exact (hb.toPerm i).2)]
    rfl
  have hc : IsPerm n c := by
    refine isPerm_of? hcl ?_ ?_
    · intro i hi
      exact ⟨_, hget ⟨i, hi⟩, (ha.toPerm (hb.toPerm ⟨i, hi⟩)).2⟩
    · intro i j k e1 e2
      have hi : i < n := by rw [← hcl]; exact (List.getElem?_eq_some_iff.1 e1).1
      have hj : j < n := by rw [← hcl]; exact (List.getElem?_eq_some_iff.1 e2).1
      rw [hget ⟨i, hi⟩] at e1
      rw [hget ⟨j, hj⟩] at e2
      have : ha.toPerm (hb.toPerm ⟨i, hi⟩) = ha.toPerm (hb.toPerm ⟨j, hj⟩) :=
        Fin.ext ((Option.some.inj e1).trans (Option.some.inj e2).symm)
      exact congrArg Fin.val (hb.toPerm.injective (ha.toPerm.injective this))
  refine ⟨c, h1, hc, ?_⟩
  ext i
  rw [IsPerm.toPerm_apply, Equiv.Perm.mul_apply]
  have := hget i
  rw [List.getElem?_eq_getElem (by rw [hcl]; exact i.2)] at this
  exact Option.some.inj this

example : compose [2, 0, 3, 1] [1, 0] 2 = .ok [2, 0, 1, 3] := by decide

/-- C26: the inverse constructor is the inverse in the group of permutations. -/
theorem C26_inverse_group (h : IsPerm n p) : ∃ q, inverse p = .ok q ∧ ∃ hq : IsPerm n q, hq.toPerm = h.toPerm⁻¹ := by
  obtain ⟨q, h1, hq, h3⟩ := C26_inverse h
  refine ⟨q, h1, hq, ?_⟩
  apply eq_inv_of_mul_eq_one_left
  ext i
  rw [Equiv.Perm.mul_apply, hq.toPerm_apply]
  have : p[i.val]? = some (h.toPerm i).val := by
    rw [List.getElem?_eq_getElem (by rw [h.length]; exact i.2)]; rfl
  have := (h3 _ _).1 this
  exact Option.some.inj ((List.getElem?_eq_getElem _).symm.trans this)

/-! ### action on vectors -/

theorem pullLoop_spec (v : List α) (pi : List Nat) (r : List α) (h : ∀ x ∈ pi, x < v.length) :
    ∃ s, pullLoop v pi r = .ok (r ++ s) ∧ s.length = pi.length ∧ ∀ i : Nat, s[i]? = pi[i]?.bind (v[·]?) := by
  induction pi generalizing r with
  | nil => exact ⟨[], by rw [pullLoop, List.append_nil], rfl, fun i => by simp⟩
  | cons x pi ih =>
    have hx := h x (by simp)
    rw [pullLoop, Vec.get_ok hx, Res.ok_bind]
    obtain ⟨s, h1, h2, h3⟩ := ih (r ++ [v[x]]) (fun y hy => h y (by simp [hy]))
    refine ⟨v[x] :: s, by rw [h1]; simp, by simp [h2], ?_⟩
    intro i
    cases i with
    | zero => simp [List.getElem?_eq_getElem hx]
    | succ i => simpa using h3 i

/-- C26: `pull_back` gives the vector with `r[i]=v[p[i]]`. -/
theorem C26_pullBack (nd : Bool) (h : IsPerm n p) (v : List α) (hv : v.length = n) :
    ∃ r, pullBack nd p v = .ok r ∧ r.length = n ∧ ∀ i : Nat, r[i]? = p[i]?.bind (v[·]?) := by
  obtain ⟨s, h1, h2, h3⟩ := pullLoop_spec v p [] (fun x hx => by rw [hv]; exact h.mem.1 hx)
  refine ⟨s, ?_, by rw [h2, h.length], h3⟩
  rw [pullBack, Res.assertIn_bind nd (by rw [hv, h.length]; simp), h1]; rfl

/-- C26: `permute` sends the entry at `i` to position `p[i]`, and leaves entries beyond the degree alone. -/
theorem C26_permute (nd : Bool) (h : IsPerm n p) (v : List α) (hv : n ≤ v.length) :
    ∃ r, permute nd p v = .ok r ∧ r.length = v.length ∧ (∀ i j : Nat, p[i]? = some j → r[j]? = v[i]?) ∧
      ∀ i : Nat, n ≤ i → r[i]? = v[i]? := by
  obtain ⟨r, h1, h2, h3, h4⟩ := permuteLoop_spec h n 0 v (fun x => v[(h.toPerm.symm x).val]?) hv (Outer.init h.toPerm)
    (by omega) (fun x => by simp)
  refine ⟨r, ?_, h2, ?_, h3⟩
  · rw [permute, Res.assertIn_bind nd (by simpa [h.length] using hv), h.length, h1]
  · intro i j e
    obtain ⟨hi, e⟩ := List.getElem?_eq_some_iff.1 e
    have hin : i < n := h.length ▸ hi
    have := h4 (h.toPerm ⟨i, hin⟩)
    rw [Equiv.symm_apply_apply, h.toPerm_apply] at this
    simp only [e] at this
    exact this.symm

example : permute false [2, 0, 3, 1] ['a', 'b', 'c', 'd', 'e'] = .ok ['b', 'd', 'a', 'c', 'e'] := by decide
example : pullBack false [2, 0, 3, 1] ['b', 'd', 'a', 'c'] = .ok ['a', 'b', 'c', 'd'] := by decide

theorem ext_perm (h : IsPerm n p) {r s : List α} (hr : r.length = n) (hs : s.length = n)
    (he : ∀ i j : Nat, p[i]? = some j → r[j]? = s[j]?) : r = s := by
  apply List.ext_getElem?
  intro j
  by_cases c : j < n
  · obtain ⟨i, _, e⟩ := h.surj c
    exact he i j e
  · rw [List.getElem?_eq_none (by omega), List.getElem?_eq_none (by omega)]

/-- C26: `permute` and `pull_back` undo each other. -/
theorem C26_permute_pullBack (nd : Bool) (h : IsPerm n p) (v : List α) (hv : v.length = n) :
    (pullBack nd p v >>= permute nd p) = .ok v ∧ (permute nd p v >>= pullBack nd p) = .ok v := by
  constructor
  · obtain ⟨r, h1, h2, h3⟩ := C26_pullBack nd h v hv
    obtain ⟨s, k1, k2, k3, _⟩ := C26_permute nd h r (by omega)
    rw [h1, Res.ok_bind, k1]
    congr 1
    apply ext_perm h (by omega) hv
    intro i j e
    rw [k3 i j e, h3, e]; rfl
  · obtain ⟨s, k1, k2, k3, _⟩ := C26_permute nd h v (by omega)
    obtain ⟨r, h1, h2, h3⟩ := C26_pullBack nd h s (by omega)
    rw [k1, Res.ok_bind, h1]
    congr 1
    apply List.ext_getElem?
    intro i
    rw [h3]
    by_cases c : i < n
    · obtain ⟨j, e, _⟩ := h.get? c
      rw [e, Option.bind_some, k3 i j e]
    · rw [List.getElem?_eq_none (by rw [h.length]; omega), Option.bind_none, List.getElem?_eq_none (by omega)]

/-- C26: permuting by the inverse is pulling back. -/
theorem C26_permute_inverse (nd : Bool) (h : IsPerm n p) (v : List α) (hv : v.length = n) :
    (inverse p >>= fun q => permute nd q v) = pullBack nd p v := by
  obtain ⟨q, h1, hq, h2⟩ := C26_inverse h
  obtain ⟨r, k1, k2, k3⟩ := C26_pullBack nd h v hv
  obtain ⟨s, g1, g2, g3, _⟩ := C26_permute nd hq v (by omega)
  rw [h1, Res.ok_bind, g1, k1]
  congr 1
  apply ext_perm hq (by omega) k2
  intro i j e
  rw [g3 i j e, k3, (h2 j i).2 e]; rfl

/-- C26: action law: permuting by `b` and then by `a` is permuting by the product `a*b`. -/
theorem C26_permute_mul (nd : Bool) {a b : List Nat} (ha : IsPerm n a) (hb : IsPerm n b) (v : List α) (hv : v.length = n) :
    (permute nd b v >>= permute nd a) = (compose a b 0 >>= fun c => permute nd c v) := by
  obtain ⟨c, h1, hc, hmul⟩ := C26_compose_mul ha hb
  obtain ⟨_, h1', _, h3, _⟩ := C26_compose hb 0 (show 0 + n ≤ a.length by rw [ha.length]; omega)
  rw [h1] at h1'; cases h1'
  obtain ⟨s, g1, g2, g3, _⟩ := C26_permute nd hb v (by omega)
  obtain ⟨t, k1, k2, k3, _⟩ := C26_permute nd ha s (by omega)
  obtain ⟨u, l1, l2, l3, _⟩ := C26_permute nd hc v (by omega)
  rw [g1, Res.ok_bind, k1, h1, Res.ok_bind, l1]
  congr 1
  apply ext_perm hc (by omega) (by omega)
  intro i j e
  rw [l3 i j e]
  have hi : i < n := by rw [← hc.length]; exact (List.getElem?_eq_some_iff.1 e).1
  obtain ⟨k, ek, _⟩ := hb.get? hi
  have := h3 i hi
  simp only [Nat.zero_add] at this
  rw [e, ek, Option.bind_some] at this
  rw [k3 k j this.symm, g3 i k ek]

/-! ### renumbering -/

/-- C26: `renumbering` of a vector of numbers replaces each entry `x` by `p[x]`. -/
theorem C26_renumbering (h : IsPerm n p) (v : List Nat) (hv : ∀ x ∈ v, x < n) :
    ∃ r, renumbering p v = .ok r ∧ r.length = v.length ∧ ∀ i : Nat, r[i]? = v[i]?.bind (p[·]?) := by
  obtain ⟨s, h1, h2, h3⟩ := pullLoop_spec p v [] (fun x hx => by rw [h.length]; exact hv x hx)
  exact ⟨s, h1, h2, h3⟩

theorem renumberLoop_spec (h : IsPerm n p) (ex : Option Nat) (v r : List Nat) (hv : ∀ x ∈ v, some x ≠ ex → x < n) :
    ∃ s, renumberLoop p ex v r = .ok (r ++ s) ∧ s.length = v.length ∧
      ∀ i x : Nat, v[i]? = some x → s[i]? = if some x = ex then some x else p[x]? := by
  induction v generalizing r with
  | nil => exact ⟨[], by rw [renumberLoop, List.append_nil], rfl, fun i x e => by simp at e⟩
  | cons x v ih =>
    have hy : ∃ y, (if some x = ex then (pure x : Res Nat) else Vec.get p x) = .ok y ∧
        some y = if some x = ex then some x else p[x]? := by
      by_cases c : some x = ex
      · exact ⟨x, by rw [if_pos c]; rfl, by rw [if_pos c]⟩
      · obtain ⟨j, e, _⟩ := h.get? (hv x (by simp) c)
        exact ⟨j, by rw [if_neg c, Vec.get_of e], by rw [if_neg c, e]⟩
    obtain ⟨y, hy, hy2⟩ := hy
    rw [renumberLoop, hy, Res.ok_bind]
    obtain ⟨s, h1, h2, h3⟩ := ih (r ++ [y]) (fun z hz => hv z (by simp [hz]))
    refine ⟨y :: s, by rw [h1]; simp, by simp [h2], ?_⟩
    intro i z e
    cases i with
    | zero => simp at e; subst e; simpa using hy2
    | succ i => simpa using h3 i z (by simpa using e)

/-- C26: `renumber` replaces each entry `x` by `p[x]`, except a given value. -/
theorem C26_renumber (h : IsPerm n p) (ex : Option Nat) (v : List Nat) (hv : ∀ x ∈ v, some x ≠ ex → x < n) :
    ∃ r, renumber p ex v = .ok r ∧ r.length = v.length ∧
      ∀ i x : Nat, v[i]? = some x → r[i]? = if some x = ex then some x else p[x]? := by
  obtain ⟨s, h1, h2, h3⟩ := renumberLoop_spec h ex v [] hv
  exact ⟨s, h1, h2, h3⟩

example : renumber [2, 0, 3, 1] (some 99) [3, 99, 0, 0, 1] = .ok [1, 99, 2, 2, 0] := by decide

theorem renumberSetLoop_spec (h : IsPerm n p) (b : List Nat) (r : List Bool) (hb : ∀ x ∈ b, x < n) (hr : r.length = n) :
    ∃ s, renumberSetLoop p b r = .ok s ∧ s.length = n ∧
      ∀ j : Nat, s[j]? = some true ↔ (r[j]? = some true ∨ ∃ x ∈ b, p[x]? = some j) := by
  induction b generalizing r with
  | nil => exact ⟨r, rfl, hr, fun j => by simp⟩
  | cons x b ih =>
    obtain ⟨k, e, hk⟩ := h.get? (hb x (by simp))
    rw [renumberSetLoop, Vec.get_of e, Res.ok_bind, Vec.put_ok (by omega), Res.ok_bind]
    obtain ⟨s, h1, h2, h3⟩ := ih (r.set k true) (fun z hz => hb z (by simp [hz])) (by simpa using hr)
    refine ⟨s, h1, h2, fun j => ?_⟩
    rw [h3]
    by_cases c : k = j
    · subst c
      rw [List.getElem?_set_self (by omega)]
      simp [e]
    · rw [List.getElem?_set_ne c]
      simp [e, c]

/-- C26: `renumbering` of a bitmap gives the image of the set. -/
theorem C26_renumberSet (h : IsPerm n p) (b : List Nat) (hb : ∀ x ∈ b, x < n) :
    ∃ s, renumberSet p b = .ok s ∧ s.length = n ∧ ∀ j : Nat, s[j]? = some true ↔ ∃ x ∈ b, p[x]? = some j := by
  obtain ⟨s, h1, h2, h3⟩ := renumberSetLoop_spec h b (List.replicate p.length false) hb (by simp [h.length])
  refine ⟨s, h1, h2, fun j => ?_⟩
  rw [h3]
  constructor
  · rintro (c | c)
    · rw [List.getElem?_replicate] at c; split_ifs at c; simp at c
    · exact c
  · exact .inr

example : renumberSet [2, 0, 3, 1] [0, 3] = .ok [false, true, true, false] := by decide

/-! ### predicates -/

theorem isIdentLoop_spec (h : IsPerm n p) (m i : Nat) (hm : i + m = n) :
    ∃ b, isIdentLoop p m i = .ok b ∧ (b = true ↔ ∀ j, i ≤ j → j < n → p[j]? = some j) := by
  induction m generalizing i with
  | zero => exact ⟨true, rfl, by simp; intro j h1 h2; omega⟩
  | succ m ih =>
    obtain ⟨k, e, hk⟩ := h.get? (show i < n by omega)
    rw [isIdentLoop, Vec.get_of e, Res.ok_bind]
    by_cases c : k = i
    · rw [if_neg (by simpa using c)]
      obtain ⟨b, h1, h2⟩ := ih (i + 1) (by omega)
      refine ⟨b, h1, h2.trans ⟨fun g j h1 h2 => ?_, fun g j h1 h2 => g j (by omega) h2⟩⟩
      by_cases e' : i = j
      · subst e'; rw [e, c]
      · exact g j (by omega) h2
    · rw [if_pos c]
      refine ⟨false, rfl, by simp only [Bool.false_eq_true, false_iff]; intro g; have := g i le_rfl (by omega); rw [e] at this; exact c (Option.some.inj this)⟩

/-- C26: `is_identity` is true exactly for the identity permutation. -/
theorem C26_isIdentity (h : IsPerm n p) : isIdentity p = .ok (decide (p = List.range n)) := by
  obtain ⟨b, h1, h2⟩ := isIdentLoop_spec h p.length 0 (by rw [h.length]; omega)
  rw [isIdentity, h1]
  congr 1
  rw [Bool.eq_iff_iff, h2, decide_eq_true_iff]
  constructor
  · intro g
    apply List.ext_getElem?
    intro i
    by_cases c : i < n
    · rw [g i (by omega) c, List.getElem?_range c]
    · rw [List.getElem?_eq_none (by rw [h.length]; omega), List.getElem?_eq_none (by simp; omega)]
  · intro e j _ hj
    rw [e, List.getElem?_range hj]

/-- C26: `sign` is the sign of the permutation: the homomorphism to `{1,-1}` sending transpositions
to `-1`, as defined in Mathlib.  The assertion in the loop never fails. -/
theorem C26_sign (nd : Bool) (h : IsPerm n p) : sign nd p = .ok (Equiv.Perm.sign h.toPerm : ℤˣ) := by
  have := negLoop_spec nd h (ρ := h.toPerm) n 0 false (Outer.init h.toPerm) (by omega)
  rw [sign, isNegative, h.length, this, Res.ok_bind, Res.pure_eq]
  congr 1
  rw [neg]
  rcases Int.units_eq_one_or (Equiv.Perm.sign h.toPerm) with e | e <;> rw [e] <;> decide

/-- C26: `is_negative` is true exactly for odd permutations. -/
theorem C26_isNegative (nd : Bool) (h : IsPerm n p) : isNegative nd p = .ok (decide (Equiv.Perm.sign h.toPerm = -1)) := by
  have := negLoop_spec nd h (ρ := h.toPerm) n 0 false (Outer.init h.toPerm) (by omega)
  rw [isNegative, h.length, this]
  simp [neg]

example : sign false [2, 0, 3, 1] = .ok (-1) := by decide

theorem fixedLoop_spec (h : IsPerm n p) (m i : Nat) (r : List Bool) (hr : r.length = n) (hm : i + m = n) :
    ∃ s, fixedLoop p m i r = .ok s ∧ s.length = n ∧
      ∀ j : Nat, s[j]? = some true ↔ (r[j]? = some true ∨ (i ≤ j ∧ p[j]? = some j)) := by
  induction m generalizing i r with
  | zero =>
    refine ⟨r, rfl, hr, fun j => ⟨.inl, ?_⟩⟩
    rintro (c | ⟨c1, c2⟩)
    · exact c
    · rw [List.getElem?_eq_none (by rw [h.length]; omega)] at c2; cases c2
  | succ m ih =>
    obtain ⟨k, e, hk⟩ := h.get? (show i < n by omega)
    rw [fixedLoop, Vec.get_of e, Res.ok_bind]
    by_cases c : k = i
    · subst c
      rw [if_pos rfl, Vec.put_ok (by omega), Res.ok_bind]
      obtain ⟨s, h1, h2, h3⟩ := ih (k + 1) (r.set k true) (by simpa using hr) (by omega)
      refine ⟨s, h1, h2, fun j => ?_⟩
      rw [h3]
      by_cases e' : k = j
      · subst e'; rw [List.getElem?_set_self (by omega)]; simp [e]
      · rw [List.getElem?_set_ne e']
        have : k + 1 ≤ j ↔ k ≤ j := by omega
        rw [this]
    · rw [if_neg c]
      obtain ⟨s, h1, h2, h3⟩ := ih (i + 1) r hr (by omega)
      refine ⟨s, h1, h2, fun j => ?_⟩
      rw [h3]
      by_cases e' : i = j
      · subst e'
        simp only [e, Option.some.injEq, c, and_false]
      · have : i + 1 ≤ j ↔ i ≤ j := by omega
        rw [this]

/-- C26: `fixed_points` is the set of fixed points. -/
theorem C26_fixedPoints (h : IsPerm n p) :
    ∃ s, fixedPoints p = .ok s ∧ s.length = n ∧ ∀ j : Nat, s[j]? = some true ↔ p[j]? = some j := by
  obtain ⟨s, h1, h2, h3⟩ := fixedLoop_spec h p.length 0 (List.replicate p.length false) (by simp [h.length]) (by rw [h.length]; omega)
  refine ⟨s, h1, h2, fun j => ?_⟩
  rw [h3]
  constructor
  · rintro (c | c)
    · rw [List.getElem?_replicate] at c; split_ifs at c; simp at c
    · exact c.2
  · exact fun c => .inr ⟨Nat.zero_le _, c⟩

example : fixedPoints [0, 2, 1, 3] = .ok [true, false, false, true] := by decide

end Verif.Perm
