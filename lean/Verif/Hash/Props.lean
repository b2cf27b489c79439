import Verif.Hash.Lemmas
import Mathlib.Tactic.Positivity
import Mathlib.Tactic.NormNum
import Mathlib.Tactic.Linarith
/-
Property theorems C23: numbering by `HashTable`, and C43: what exceptions leave behind.
-/
namespace Verif.Hash
set_option linter.unusedSectionVars false

variable {E : Type} [DecidableEq E] {W : Nat} {hash : E → Nat → Nat}

/-- what is asked of `hashCode`: for a modulus that is a power of 2, a value below it -/
def HashOK (hash : E → Nat → Nat) : Prop := ∀ x n, hash x (2 ^ n) < 2 ^ n

/-- a table in working order: its slots index exactly its pool, which has no repetitions, and there
is room left (`Core` is the open addressing invariant) -/
structure Good (W : Nat) (hash : E → Nat → Nat) (t : Table E) : Prop where
  core : Core W hash t.mod t.slots t.pool
  nodup : t.pool.Nodup
  pow : ∃ n, t.mod = 2 ^ (n + 1)
  fill : t.pool.length ≤ maxFill t.mod

theorem maxFill_lt {m : Nat} (h : 0 < m) : maxFill m < m := by unfold maxFill; omega
theorem maxFill_pos {m : Nat} (h : 2 ≤ m) : 1 ≤ maxFill m := by unfold maxFill; omega
theorem maxFill_two (m : Nat) : 2 * maxFill m ≤ maxFill (2 * m) := by unfold maxFill; omega

theorem Good.two_le {t : Table E} (h : Good W hash t) : 2 ≤ t.mod := by
  obtain ⟨n, hn⟩ := h.pow
  rw [hn, pow_succ]
  have : 1 ≤ 2 ^ n := Nat.one_le_two_pow
  omega

theorem Good.lt {t : Table E} (h : Good W hash t) : t.pool.length < t.mod :=
  lt_of_le_of_lt h.fill (maxFill_lt (by have := h.two_le; omega))

theorem growLoop_spec (n : Nat) : ∀ (k j : Nat), n + 2 ≤ k + j → 0 < k →
    ∃ j', growLoop n k (2 ^ j) = .ok (2 ^ (j' + 1)) ∧ n < maxFill (2 ^ (j' + 1)) ∧ j ≤ j' + 1
  | 0, j, _, h => absurd h (by omega)
  | k + 1, j, hk, _ => by
    rw [growLoop]
    by_cases c : n ≥ maxFill (2 ^ j)
    · rw [if_pos c, ← pow_succ']
      by_cases k0 : 0 < k
      · obtain ⟨j', h1, h2, h3⟩ := growLoop_spec n k (j + 1) (by omega) k0
        exact ⟨j', h1, h2, by omega⟩
      · exfalso
        have h1 : j - 1 < 2 ^ (j - 1) := Nat.lt_two_pow_self
        have h2 : 2 ^ j = 2 * 2 ^ (j - 1) := by
          rw [← pow_succ']; congr 1; omega
        rw [h2] at c
        unfold maxFill at c
        omega
    · rw [if_neg c]
      cases j with
      | zero => exfalso; simp [maxFill] at c
      | succ j => exact ⟨j, rfl, by omega, le_rfl⟩

/-- C23: a new table, for any pool without repetitions, works and keeps the pool. -/
theorem C23_make (hh : HashOK hash) {pool : List E} (hp : pool.Nodup) (hW : pool.length < W) (n : Nat) {alloc : Nat → Bool}
    (ha : ∀ m, alloc m = true) : ∃ t, make W hash alloc pool n = .ok t ∧ Good W hash t ∧ t.pool = pool := by
  obtain ⟨j, h1, h2, -⟩ := growLoop_spec pool.length (pool.length + 3) n (by omega) (by omega)
  have hlt := maxFill_lt (m := 2 ^ (j + 1)) (by positivity)
  obtain ⟨s, e, hc⟩ := rehash_spec (W := W) (hash := hash) (m := 2 ^ (j + 1)) (by positivity) (fun x => hh x _) (ha _)
    hW (by omega : pool.length ≤ 2 ^ (j + 1))
  refine ⟨⟨2 ^ (j + 1), s, pool⟩, ?_, ⟨hc, hp, ⟨j, rfl⟩, h2.le⟩, rfl⟩
  unfold make
  rw [h1, Res.ok_bind, e, Res.ok_bind]; rfl

theorem Good.hash_lt (hh : HashOK hash) {t : Table E} (h : Good W hash t) (x : E) : hash x t.mod < t.mod := by
  obtain ⟨n, hn⟩ := h.pow
  rw [hn]; exact hh _ _

theorem idxOf_of_get {p : List E} (hp : p.Nodup) {i : Nat} {x : E} (h : p[i]? = some x) : p.idxOf x = i := by
  obtain ⟨hi, rfl⟩ := List.getElem?_eq_some_iff.1 h
  exact hp.idxOf_getElem i hi

/-- C23: `find(x)` gives the number of `x` if it was stored, and the code for absence (`~Number(0)`,
that is `W-1`) if not. -/
theorem C23_find (hh : HashOK hash) {t : Table E} (h : Good W hash t) (x : E) :
    find W hash t x = .ok (if x ∈ t.pool then t.pool.idxOf x else W - 1) := by
  obtain ⟨d, -, e, hd⟩ := h.core.find h.lt (h.hash_lt hh x)
  unfold find
  rw [show (⟨t.mod, t.slots, t.pool⟩ : Table E) = t from rfl] at e
  rw [e, Res.ok_bind, Res.pure_eq]
  rcases hd with ⟨h1, h2, -⟩ | ⟨h1, h2⟩
  · rw [if_neg h2]; exact congrArg _ h1
  · rw [if_pos (List.mem_of_getElem? h2), idxOf_of_get h.nodup h2]

/-- C23: `match(x)` of a stored value changes nothing and gives its number. -/
theorem C23_match_old (hh : HashOK hash) {t : Table E} (h : Good W hash t) {x : E} (hx : x ∈ t.pool) (alloc : Nat → Bool) (room : Bool) :
    matchOp W hash alloc room t x = (t, .ok (t.pool.idxOf x)) := by
  obtain ⟨d, -, e, hd⟩ := h.core.find h.lt (h.hash_lt hh x)
  unfold matchOp
  rw [show (⟨t.mod, t.slots, t.pool⟩ : Table E) = t from rfl] at e
  rw [e]
  rcases hd with ⟨h1, h2, -⟩ | ⟨h1, h2⟩
  · exact absurd hx h2
  · simp only
    rw [if_pos h1, idxOf_of_get h.nodup h2]

/-- what `match(x)` does to a table not containing `x`, whatever number comes next -/
theorem match_new (hh : HashOK hash) {t : Table E} (h : Good W hash t) {x : E} (hx : x ∉ t.pool)
    {alloc : Nat → Bool} (ha : alloc (2 * t.mod) = true) :
    ∃ m s d, Core W hash m s t.pool ∧ (∃ n, m = 2 ^ (n + 1)) ∧ t.pool.length + 1 ≤ maxFill m ∧ d < m ∧
      s.getD ((hash x m + d) % m) 0 = empty W ∧ (∀ k' < d, s.getD ((hash x m + k') % m) 0 ≠ empty W) ∧
      matchOp W hash alloc true t x =
        (⟨m, s.set ((hash x m + d) % m) t.pool.length, t.pool ++ [x]⟩, .ok t.pool.length) := by
  obtain ⟨d, hd0, e, hd⟩ := h.core.find h.lt (h.hash_lt hh x)
  have hsm := h.core.small
  rw [show (⟨t.mod, t.slots, t.pool⟩ : Table E) = t from rfl] at e
  have hd' := hd.resolve_right (fun hr => hx (List.mem_of_getElem? hr.2))
  obtain ⟨h1, -, h3⟩ := hd'
  have hslot : ∀ (s : List Nat) (i : Nat), i < s.length → slot (s.set i t.pool.length) i = .ok t.pool.length := by
    intro s i hi
    unfold slot
    rw [List.getElem?_set_self hi]
  have hgo : matchOp W hash alloc true t x = (if t.pool.length ≥ maxFill t.mod then
        match rehash W hash alloc (2 * t.mod) t.pool with
        | .throw => (⟨2 * t.mod, t.slots, t.pool⟩, .throw)
        | .assertFail => (⟨2 * t.mod, t.slots, t.pool⟩, .assertFail)
        | .undefined => (⟨2 * t.mod, t.slots, t.pool⟩, .undefined)
        | .outOfFuel => (⟨2 * t.mod, t.slots, t.pool⟩, .outOfFuel)
        | .ok s =>
          match freeLoop W s (2 * t.mod) (2 * t.mod + 1) (hash x (2 * t.mod)) with
          | .ok h => (⟨2 * t.mod, s.set h t.pool.length, t.pool ++ [x]⟩, slot (s.set h t.pool.length) h)
          | .throw => (⟨2 * t.mod, s, t.pool⟩, .throw)
          | .assertFail => (⟨2 * t.mod, s, t.pool⟩, .assertFail)
          | .undefined => (⟨2 * t.mod, s, t.pool⟩, .undefined)
          | .outOfFuel => (⟨2 * t.mod, s, t.pool⟩, .outOfFuel)
      else (⟨t.mod, t.slots.set ((hash x t.mod + d) % t.mod) t.pool.length, t.pool ++ [x]⟩,
        slot (t.slots.set ((hash x t.mod + d) % t.mod) t.pool.length) ((hash x t.mod + d) % t.mod)) : Table E × Res Nat) := by
    unfold matchOp
    rw [e]
    simp only [num_eq hsm]
    rw [if_neg (by simpa using h1), if_neg (by simp)]
    simp only [if_true]
    rfl
  by_cases c : t.pool.length ≥ maxFill t.mod
  · rw [if_pos c] at hgo
    obtain ⟨n, hn⟩ := h.pow
    have h2m : 2 * t.mod = 2 ^ (n + 1 + 1) := by rw [hn, ← pow_succ']
    have hfill := h.fill
    have hf1 := maxFill_pos h.two_le
    have hf2 := maxFill_two t.mod
    have hlt := h.lt
    obtain ⟨s, e1, hc⟩ := rehash_spec (W := W) (hash := hash) (m := 2 * t.mod) (by omega) (fun y => by rw [h2m]; exact hh _ _) ha
      hsm (by omega : t.pool.length ≤ 2 * t.mod)
    obtain ⟨d', d1, d2, d3, d4⟩ := hc.free (by omega) (by rw [h2m]; exact hh x _ : hash x (2 * t.mod) < 2 * t.mod)
    refine ⟨2 * t.mod, s, d', hc, ⟨n + 1, h2m⟩, by omega, d1, d3, d4, ?_⟩
    rw [hgo, e1]
    simp only [d2]
    rw [hslot _ _ (by rw [hc.len]; exact Nat.mod_lt _ hc.pos)]
  · rw [if_neg c] at hgo
    refine ⟨t.mod, t.slots, d, h.core, h.pow, by omega, hd0, h1, h3, ?_⟩
    rw [hgo, hslot _ _ (by rw [h.core.len]; exact Nat.mod_lt _ h.core.pos)]

/-- C23: `match(x)` of a new value gives it the next number and leaves all older numbers as they were. -/
theorem C23_match_new (hh : HashOK hash) {t : Table E} (h : Good W hash t) {x : E} (hx : x ∉ t.pool)
    (hW : t.pool.length + 1 < W) {alloc : Nat → Bool} (ha : alloc (2 * t.mod) = true) :
    ∃ t', matchOp W hash alloc true t x = (t', .ok t.pool.length) ∧ t'.pool = t.pool ++ [x] ∧ Good W hash t' := by
  obtain ⟨m, s, d, hc, hm, hf, hd, h1, h2, e⟩ := match_new hh h hx ha
  refine ⟨_, e, rfl, hc.add hW hd h1 h2, ?_, hm, by simpa using hf⟩
  simpa [List.nodup_append] using ⟨h.nodup, fun a ha hax => hx (hax ▸ ha)⟩

/-! ### histories -/

/-- calls on a table -/
inductive Op (E : Type) where
  | mtch (x : E)
  | find (x : E)

/-- the result of a sequence of calls: table and results (stopping at the first call that does
not return normally) -/
def run (W : Nat) (hash : E → Nat → Nat) (alloc : Nat → Bool) : List (Op E) → Table E → Res (Table E × List Nat)
  | [], t => .ok (t, [])
  | .mtch x :: ops, t =>
    match matchOp W hash alloc true t x with
    | (t', .ok i) => do
      let r ← run W hash alloc ops t'
      return (r.1, i :: r.2)
    | (_, .throw) => .throw
    | (_, .assertFail) => .assertFail
    | (_, .undefined) => .undefined
    | (_, .outOfFuel) => .outOfFuel
  | .find x :: ops, t => do
    let i ← find W hash t x
    let r ← run W hash alloc ops t
    return (r.1, i :: r.2)

/-- specification: values stored, in order of first `match` -/
def stored (l : List E) : List (Op E) → List E
  | [] => l
  | .mtch x :: ops => stored (if x ∈ l then l else l ++ [x]) ops
  | .find _ :: ops => stored l ops

/-- specification: each call gives the place of its argument in the list of values stored so far
(for `match` including the argument), or `W-1` -/
def answers (W : Nat) (l : List E) : List (Op E) → List Nat
  | [] => []
  | .mtch x :: ops => (if x ∈ l then l.idxOf x else l.length) :: answers W (if x ∈ l then l else l ++ [x]) ops
  | .find x :: ops => (if x ∈ l then l.idxOf x else W - 1) :: answers W l ops

theorem stored_length : ∀ (ops : List (Op E)) (l : List E), l.length ≤ (stored l ops).length
  | [], l => le_rfl
  | .mtch x :: ops, l => by
    rw [stored]
    refine le_trans ?_ (stored_length ops _)
    split <;> simp
  | .find x :: ops, l => by rw [stored]; exact stored_length ops l

/-- C23: for every sequence of calls storing less than `W-1` or exactly `W-1` values (all numbers
differ from the code for absence), from any good table, all results are as specified. -/
theorem C23_history (hh : HashOK hash) {alloc : Nat → Bool} (ha : ∀ m, alloc m = true) : ∀ (ops : List (Op E)) (t : Table E),
    Good W hash t → (stored t.pool ops).length < W →
    ∃ t', run W hash alloc ops t = .ok (t', answers W t.pool ops) ∧ t'.pool = stored t.pool ops ∧ Good W hash t'
  | [], t, h, _ => ⟨t, rfl, rfl, h⟩
  | .find x :: ops, t, h, hW => by
    rw [stored] at hW
    obtain ⟨t', e, h1, h2⟩ := C23_history hh ha ops t h hW
    refine ⟨t', ?_, h1, h2⟩
    rw [run, C23_find hh h, Res.ok_bind, e]; rfl
  | .mtch x :: ops, t, h, hW => by
    rw [stored] at hW
    by_cases c : x ∈ t.pool
    · rw [if_pos c] at hW
      obtain ⟨t', e, h1, h2⟩ := C23_history hh ha ops t h hW
      refine ⟨t', ?_, ?_, h2⟩
      · rw [run, C23_match_old hh h c]
        simp only [answers, if_pos c]
        rw [e]; rfl
      · rw [stored, if_pos c]; exact h1
    · rw [if_neg c] at hW
      have := stored_length ops (t.pool ++ [x])
      rw [List.length_append, List.length_singleton] at this
      obtain ⟨t1, e1, p1, g1⟩ := C23_match_new hh h c (by omega) (ha _)
      rw [← p1] at hW
      obtain ⟨t', e, h1, h2⟩ := C23_history hh ha ops t1 g1 hW
      refine ⟨t', ?_, ?_, h2⟩
      · rw [run, e1]
        simp only [answers, if_neg c]
        rw [e, p1]; rfl
      · rw [stored, if_neg c, ← p1]; exact h1

/-- C23, stability: once `match(x)` has returned `i`, after any further calls both `match(x)` and
`find(x)` return `i`, and entry number `i` is `x`. -/
theorem C23_stable (hh : HashOK hash) {alloc : Nat → Bool} (ha : ∀ m, alloc m = true) {t t1 t2 : Table E} (h : Good W hash t)
    {x : E} {i : Nat} (h1 : matchOp W hash alloc true t x = (t1, .ok i)) (hW : t.pool.length + 1 < W) {ops : List (Op E)}
    {rs : List Nat} (h2 : run W hash alloc ops t1 = .ok (t2, rs)) (hW2 : (stored t1.pool ops).length < W) :
    (matchOp W hash alloc true t2 x).2 = .ok i ∧ find W hash t2 x = .ok i ∧ get t2 i = .ok x := by
  have key : ∀ (ops : List (Op E)) (l : List E), l <+: stored l ops := by
    intro ops
    induction ops with
    | nil => intro l; exact List.prefix_rfl
    | cons o ops ih =>
      intro l
      cases o with
      | find y => exact ih l
      | mtch y =>
        rw [stored]
        refine List.IsPrefix.trans ?_ (ih _)
        split
        · exact List.prefix_rfl
        · exact List.prefix_append _ _
  have hg1 : Good W hash t1 ∧ t1.pool[i]? = some x := by
    by_cases c : x ∈ t.pool
    · rw [C23_match_old hh h c] at h1
      obtain ⟨rfl, hi⟩ := Prod.mk.inj h1
      have hi := Res.ok.inj hi
      refine ⟨h, ?_⟩
      subst hi
      rw [List.getElem?_eq_getElem (List.idxOf_lt_length_iff.2 c), List.getElem_idxOf]
    · obtain ⟨t', e, p, g⟩ := C23_match_new hh h c hW (ha (2 * t.mod))
      rw [e] at h1
      obtain ⟨rfl, hi⟩ := Prod.mk.inj h1
      have hi := Res.ok.inj hi
      refine ⟨g, ?_⟩
      subst hi
      rw [p]; simp
  obtain ⟨t', e, p, g⟩ := C23_history hh ha ops t1 hg1.1 hW2
  rw [e] at h2
  obtain ⟨rfl, -⟩ := Prod.mk.inj (Res.ok.inj h2)
  have hx : t'.pool[i]? = some x := by
    obtain ⟨r, hr⟩ := key ops t1.pool
    rw [p, ← hr, List.getElem?_append_left (List.getElem?_eq_some_iff.1 hg1.2).1]
    exact hg1.2
  have hi := idxOf_of_get g.nodup hx
  have hm := List.mem_of_getElem? hx
  refine ⟨by rw [C23_match_old hh g hm, hi], by rw [C23_find hh g, if_pos hm, hi], ?_⟩
  unfold get entry; rw [hx]

/-- C23, injectivity: two values for which `match` returned the same number are equal, whatever
was called in between. -/
theorem C23_injective (hh : HashOK hash) {alloc : Nat → Bool} (ha : ∀ m, alloc m = true) {t t1 t2 t3 : Table E} (h : Good W hash t)
    {x y : E} {i : Nat} (h1 : matchOp W hash alloc true t x = (t1, .ok i)) (hW : t.pool.length + 1 < W) {ops : List (Op E)}
    {rs : List Nat} (h2 : run W hash alloc ops t1 = .ok (t2, rs)) (hW2 : (stored t1.pool (ops ++ [.mtch y])).length < W)
    (h3 : matchOp W hash alloc true t2 y = (t3, .ok i)) : x = y := by
  have hrun : ∀ (ops : List (Op E)) (t1 t2 : Table E) (rs : List Nat), run W hash alloc ops t1 = .ok (t2, rs) →
      run W hash alloc (ops ++ [.mtch y]) t1 = (match matchOp W hash alloc true t2 y with
        | (t', .ok i) => .ok (t', rs ++ [i])
        | (_, .throw) => .throw
        | (_, .assertFail) => .assertFail
        | (_, .undefined) => .undefined
        | (_, .outOfFuel) => .outOfFuel) := by
    intro ops
    induction ops with
    | nil =>
      intro t1 t2 rs he
      simp only [run] at he
      obtain ⟨rfl, rfl⟩ := Prod.mk.inj (Res.ok.inj he)
      simp only [List.nil_append, run]
      split <;> simp
    | cons o ops ih =>
      intro t1 t2 rs he
      have hb : ∀ {r : Res (Table E × List Nat)} {j : Nat} {q : Table E × List Nat},
          (do let r ← r; return (r.1, j :: r.2)) = Res.ok q → ∃ rs', r = .ok (q.1, rs') ∧ q.2 = j :: rs' := by
        intro r j q hq
        cases r with
        | ok a => simp at hq; subst hq; exact ⟨a.2, rfl, rfl⟩
        | _ => simp at hq
      cases o with
      | find z =>
        rw [List.cons_append]
        rw [run] at he ⊢
        cases hf : find W hash t1 z with
        | ok j =>
          rw [hf, Res.ok_bind] at he
          obtain ⟨rs', hr, hq⟩ := hb he
          simp only at hr hq
          rw [Res.ok_bind, ih _ _ _ hr]
          subst hq
          cases matchOp W hash alloc true t2 y with
          | mk a b => cases b <;> rfl
        | _ => rw [hf] at he; simp at he
      | mtch z =>
        rw [List.cons_append]
        rw [run] at he ⊢
        cases hf : matchOp W hash alloc true t1 z with
        | mk t' o =>
          cases o with
          | ok j =>
            rw [hf] at he
            obtain ⟨rs', hr, hq⟩ := hb he
            simp only at hr hq
            simp only
            rw [ih _ _ _ hr]
            subst hq
            cases matchOp W hash alloc true t2 y with
            | mk a b => cases b <;> rfl
          | _ => rw [hf] at he; simp at he
  have hr := hrun ops t1 t2 rs h2
  rw [h3] at hr
  simp only at hr
  obtain ⟨-, -, hx⟩ := C23_stable hh ha h h1 hW hr hW2
  have hst : ∀ (ops : List (Op E)) (l : List E), stored l ops <+: stored l (ops ++ [.mtch y]) := by
    intro ops
    induction ops with
    | nil =>
      intro l
      simp only [List.nil_append, stored]
      split
      · exact List.prefix_rfl
      · exact List.prefix_append _ _
    | cons o ops ih =>
      intro l
      cases o with
      | find z => exact ih l
      | mtch z => exact ih _
  have hlen : (stored t1.pool ops).length < W := lt_of_le_of_lt (hst ops t1.pool).length_le hW2
  have hg1 : Good W hash t1 := by
    by_cases c : x ∈ t.pool
    · rw [C23_match_old hh h c] at h1
      obtain ⟨rfl, -⟩ := Prod.mk.inj h1; exact h
    · obtain ⟨t', e, p, g⟩ := C23_match_new hh h c hW (ha (2 * t.mod))
      rw [e] at h1
      obtain ⟨rfl, -⟩ := Prod.mk.inj h1; exact g
  obtain ⟨t', e, p, g⟩ := C23_history hh ha ops t1 hg1 hlen
  rw [e] at h2
  obtain ⟨rfl, -⟩ := Prod.mk.inj (Res.ok.inj h2)
  unfold get entry at hx
  have hx' : t3.pool[i]? = some x := by
    cases hq : t3.pool[i]? with
    | none => rw [hq] at hx; simp at hx
    | some v => rw [hq] at hx; simp at hx; rw [hx]
  by_cases c : y ∈ t'.pool
  · rw [C23_match_old hh g c] at h3
    obtain ⟨rfl, hi⟩ := Prod.mk.inj h3
    have hi := Res.ok.inj hi
    subst hi
    rw [List.getElem?_eq_getElem (List.idxOf_lt_length_iff.2 c), List.getElem_idxOf] at hx'
    exact (Option.some.inj hx').symm
  · have hpl : t'.pool.length + 1 < W := by
      have : stored t1.pool (ops ++ [.mtch y]) = stored t1.pool ops ++ [y] := by
        have : ∀ (ops : List (Op E)) (l : List E), y ∉ stored l ops → stored l (ops ++ [.mtch y]) = stored l ops ++ [y] := by
          intro ops
          induction ops with
          | nil => intro l hl; simp only [List.nil_append, stored] at hl ⊢; rw [if_neg hl]
          | cons o ops ih =>
            intro l hl
            cases o with
            | find z => exact ih l hl
            | mtch z => exact ih _ hl
        exact this ops _ (by rw [← p]; exact c)
      rw [this, List.length_append, List.length_singleton, ← p] at hW2
      exact hW2
    obtain ⟨t4, e4, p4, g4⟩ := C23_match_new hh g c hpl (ha (2 * t'.mod))
    rw [e4] at h3
    obtain ⟨rfl, hi⟩ := Prod.mk.inj h3
    have hi := Res.ok.inj hi
    subst hi
    rw [p4] at hx'
    simp at hx'
    exact hx'.symm

/-- the hash function used in the examples -/
def modHash (x m : Nat) : Nat := x % m

theorem modHash_ok : HashOK modHash := fun x n => Nat.mod_lt _ (by positivity)

example : ∃ t, make 256 modHash (fun _ => true) [] 1 = .ok t ∧
    run 256 modHash (fun _ => true) [.mtch 9, .mtch 5, .mtch 13, .find 5, .mtch 9, .find 7, .mtch 1] t =
      .ok (⟨8, [255, 0, 3, 255, 255, 1, 2, 255], [9, 5, 13, 1]⟩, [0, 1, 2, 1, 0, 255, 3]) := ⟨_, rfl, by decide +kernel⟩

/-- C23 fails at the very last number (finding F11): with `W-1` values stored, `match` of a new
value returns the code for absence, and a `find` of that value then does not find it. -/
theorem C23_last_false (hh : HashOK hash) {t : Table E} (h : Good W hash t) {x : E} (hx : x ∉ t.pool)
    (hW : t.pool.length = W - 1) {alloc : Nat → Bool} (ha : alloc (2 * t.mod) = true) :
    ∃ t', matchOp W hash alloc true t x = (t', .ok (empty W)) ∧ x ∈ t'.pool ∧ find W hash t' x = .ok (empty W) := by
  obtain ⟨m, s, d, hc, ⟨n, hm⟩, hf, hd, h1, h2, e⟩ := match_new hh h hx ha
  have hs : s.set ((hash x m + d) % m) t.pool.length = s := by
    have hi : (hash x m + d) % m < s.length := by rw [hc.len]; exact Nat.mod_lt _ hc.pos
    rw [List.getD_eq_getElem _ _ hi] at h1
    have : t.pool.length = s[(hash x m + d) % m] := by rw [h1, hW]; rfl
    rw [this, List.set_getElem_self]
  rw [hs] at e
  refine ⟨⟨m, s, t.pool ++ [x]⟩, by rw [e, hW]; rfl, by simp, ?_⟩
  unfold find
  rw [findLoop_run (W := W) (t := ⟨m, s, t.pool ++ [x]⟩) hc.len d (m + 1) _ (by dsimp only; rw [hm]; exact hh _ _) (by omega) (.inl h1)]
  · rw [Res.ok_bind]; exact congrArg _ h1
  · intro k' hk'
    have hlt := hc.vals _ (Nat.mod_lt (hash x m + k') hc.pos) (h2 k' hk')
    refine ⟨h2 k' hk', t.pool[s.getD ((hash x m + k') % m) 0], ?_, ?_⟩
    · exact (List.getElem?_append_left hlt).trans (List.getElem?_eq_getElem hlt)
    · intro he; exact hx (he ▸ List.getElem_mem hlt)

/-- such tables exist for every size of `Number`: store `W-1` different values -/
theorem C23_last_reachable (hW : 0 < W) : ∃ t, Good W modHash t ∧ t.pool = List.range (W - 1) := by
  obtain ⟨t, -, h, hp⟩ := C23_make (W := W) modHash_ok (pool := List.range (W - 1)) List.nodup_range (by simp; omega) 8
    (alloc := fun _ => true) (fun _ => rfl)
  exact ⟨t, h, hp⟩

/-! ### exceptions (C43) -/

/-- C43: the overflow exception leaves the table as it was.  Missing: exceptions from
allocation, where the claim is false (`C43_rehash_false`, `C43_push_false`). -/
theorem C43_overflow_partial (hh : HashOK hash) {t : Table E} (h : Core W hash t.mod t.slots (t.pool.take (W - 1)))
    (hp : t.pool.length ≥ W) (hW : 0 < W) (hroom : W - 1 < t.mod) (hpow : ∃ n, t.mod = 2 ^ n) {x : E} (hx : x ∉ t.pool)
    (alloc : Nat → Bool) (room : Bool) : matchOp W hash alloc room t x = (t, .throw) := by
  obtain ⟨n, hn⟩ := hpow
  have hlen : (t.pool.take (W - 1)).length = W - 1 := by rw [List.length_take]; omega
  obtain ⟨h0, q1, q2⟩ := h.exists_free (by omega)
  have hxm : hash x t.mod < t.mod := by rw [hn]; exact hh _ _
  obtain ⟨d, d1, d2, d3⟩ := first_round (P := fun i => t.slots.getD i 0 = empty W) q1 q2 hxm
  have e := findLoop_run (W := W) (t := t) (x := x) h.len d (t.mod + 1) _ hxm (by omega) (.inl d2) (by
    intro k' hk'
    have hlt := h.vals _ (Nat.mod_lt (hash x t.mod + k') h.pos) (d3 k' hk')
    rw [hlen] at hlt
    refine ⟨d3 k' hk', t.pool[t.slots.getD ((hash x t.mod + k') % t.mod) 0]'(by omega), List.getElem?_eq_getElem _, ?_⟩
    intro he; exact hx (he ▸ List.getElem_mem _))
  unfold matchOp
  rw [e]
  simp only
  rw [if_neg (by simpa using d2), if_pos]
  unfold num
  have := Nat.mod_lt t.pool.length hW
  omega

/-- C43 fails: when the allocation during growth throws, `d_mod` is already doubled and `d_hash`
is not, so the next `find` reads outside `d_hash` (finding F27). -/
theorem C43_rehash_false : ∃ t t' : Table Nat, Good 256 modHash t ∧
    matchOp 256 modHash (fun m => m ≤ 2) true t 1 = (t', .throw) ∧ find 256 modHash t' 3 = .undefined := by
  refine ⟨⟨2, [0, 255], [0]⟩, ⟨4, [0, 255], [0]⟩, ?_, by decide +kernel, by decide +kernel⟩
  refine ⟨⟨by norm_num, rfl, by simp, by decide +kernel, by decide +kernel, by decide +kernel⟩, by simp, ⟨0, rfl⟩, by decide +kernel⟩

/-- C43 fails: when storing the entry in the pool throws, its slot is already filled, so a later
`find` can read outside the pool (finding F27). -/
theorem C43_push_false : ∃ t t' : Table Nat, Good 256 modHash t ∧
    matchOp 256 modHash (fun _ => true) false t 1 = (t', .throw) ∧ find 256 modHash t' 1 = .undefined := by
  refine ⟨⟨2, [255, 255], []⟩, ⟨2, [255, 0], []⟩, ?_, by decide +kernel, by decide +kernel⟩
  refine ⟨⟨by norm_num, rfl, by simp, by decide +kernel, by simp, by decide +kernel⟩, by simp, ⟨0, rfl⟩, by decide +kernel⟩

end Verif.Hash
