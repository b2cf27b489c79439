import Verif.Tally.Lemmas
import Mathlib.Data.Nat.Count
/-
C24: a `TallyVec` is a histogram.  Specification: `occ h i`, the sum of the multiplicities with
which `i` was tallied in the history `h`.
-/
namespace Verif.Tally
set_option linter.dupNamespace false

/-- a call of `tally(i)` or `tally(i,m)` -/
inductive Op
  | one (i : Nat)
  | many (i m : Nat)
  deriving DecidableEq

/-- the index tallied -/
def Op.idx : Op → Nat
  | .one i => i
  | .many i _ => i

/-- the number of times it is counted -/
def Op.mul : Op → Nat
  | .one _ => 1
  | .many _ m => m

/-- specification: how often `i` has been counted in a history of calls -/
def occ (h : List Op) (i : Nat) : Nat := ((h.filter (fun o => o.idx = i)).map Op.mul).sum

/-- specification: how often anything has been counted -/
def all (h : List Op) : Nat := (h.map Op.mul).sum

/-- the program's response to a call -/
def step (M : Nat) (t : Tally) : Op → Tally × Bool
  | .one i => tally1 M t i
  | .many i m => tallyN M t i m

/-- the state after a history of calls on a new `TallyVec(limit)` -/
def run (M cap : Nat) (h : List Op) : Tally := h.foldl (fun t o => (step M t o).1) (make cap)

theorem occ_snoc (h : List Op) (o : Op) : occ (h ++ [o]) = bump (occ h) o.idx o.mul := by
  funext i
  rw [bump, occ, occ, List.filter_append, List.map_append, List.sum_append]
  by_cases c : i = o.idx
  · rw [if_pos c, List.filter_cons_of_pos (by simp [c])]; simp
  · rw [if_neg c, List.filter_cons_of_neg (by simpa using fun e : o.idx = i => c e.symm)]; simp

theorem all_snoc (h : List Op) (o : Op) : all (h ++ [o]) = all h + o.mul := by
  simp [all]

theorem run_snoc (M cap : Nat) (h : List Op) (o : Op) : run M cap (h ++ [o]) = (step M (run M cap h) o).1 := by
  rw [run, List.foldl_append]; rfl

theorem step_eq {M : Nat} (hM : 1 < M) {t : Tally} {f : Nat → Nat} {S : Nat} (h : Rep M t f S) (o : Op)
    (hS : S + o.mul < 2 ^ 64) : step M t o = tallyN M t o.idx o.mul := by
  cases o with
  | one i => exact tally1_eq hM h i hS
  | many i m => rfl

theorem run_rep {M : Nat} (hM : 1 < M) (cap : Nat) (h : List Op) (hS : all h < 2 ^ 64) :
    Rep M (run M cap h) (occ h) (all h) := by
  induction h using List.reverseRecOn with
  | nil => exact rep_make M cap
  | append_singleton h o ih =>
    rw [all_snoc] at hS
    have hr := ih (by omega)
    rw [run_snoc, occ_snoc, all_snoc, step_eq hM hr o hS]
    exact (tallyN_spec (by omega) hr _ _ hS).1

theorem run_pos {M : Nat} (hM : 1 < M) (cap : Nat) (h : List Op) (hS : all h < 2 ^ 64) (hp : ∀ o ∈ h, 0 < o.mul) :
    Pos (run M cap h) (occ h) := by
  induction h using List.reverseRecOn with
  | nil => exact pos_make cap
  | append_singleton h o ih =>
    rw [all_snoc] at hS
    have hr := run_rep hM cap h (by omega)
    have hps := ih (by omega) (fun o ho => hp o (by simp [ho]))
    rw [run_snoc, occ_snoc, step_eq hM hr o hS]
    exact pos_tallyN (by omega) hr hps _ _ (hp o (by simp)) hS

theorem occ_pos_mem {h : List Op} {i : Nat} (hi : 0 < occ h i) : ∃ o ∈ h, o.idx = i := by
  by_contra hc
  have : h.filter (fun o => o.idx = i) = [] := by
    rw [List.filter_eq_nil_iff]
    intro o ho he
    exact hc ⟨o, ho, by simpa using he⟩
  rw [occ, this] at hi
  simp at hi

theorem le_sum_mem {l : List Nat} (x : Nat) (hx : x ∈ l) : x ≤ l.sum := by
  induction l with
  | nil => exact absurd hx (by simp)
  | cons y l ih =>
    rw [List.sum_cons]
    rcases List.mem_cons.1 hx with rfl | hx
    · omega
    · have := ih hx; omega

theorem occ_mem {h : List Op} {o : Op} (ho : o ∈ h) (hp : 0 < o.mul) : 0 < occ h o.idx := by
  have h1 : o.mul ≤ occ h o.idx := by
    refine le_sum_mem _ ?_
    exact List.mem_map.2 ⟨o, List.mem_filter.2 ⟨ho, by simp⟩, rfl⟩
  omega

/-- a history used to show that the hypotheses below can be met: the type `unsigned char`, limit 4 -/
def sample : List Op := [.one 2, .many 3 300, .one 9, .many 2 254, .one 7, .one 9]

/-! ### multiplicities -/

/-- After any history of calls, `multiplicity(i)` is the number of times `i` was counted, for every
index `i`, whatever the limit and the size of the counters. -/
theorem C24_multiplicity {M : Nat} (hM : 1 < M) (cap : Nat) (h : List Op) (hS : all h < 2 ^ 64) (i : Nat) :
    multiplicity M (run M cap h) i = .ok (occ h i) :=
  multiplicity_eq (run_rep hM cap h hS) i

example : (1:Nat) < 255 ∧ all sample < 2 ^ 64 ∧ multiplicity 255 (run 255 4 sample) 3 = .ok 300 ∧
    multiplicity 255 (run 255 4 sample) 2 = .ok 255 ∧ multiplicity 255 (run 255 4 sample) 9 = .ok 2 := by
  decide +kernel

/-- `sum()` is the number of things counted -/
theorem C24_sum {M : Nat} (hM : 1 < M) (cap : Nat) (h : List Op) (hS : all h < 2 ^ 64) :
    sum (run M cap h) = all h :=
  (run_rep hM cap h hS).total

example : sum (run 255 4 sample) = 558 := by decide +kernel

/-- `size()` is one more than the largest index counted -/
theorem C24_size {M : Nat} (hM : 1 < M) (cap : Nat) (h : List Op) (hS : all h < 2 ^ 64)
    (hp : ∀ o ∈ h, 0 < o.mul) (hi : ∀ o ∈ h, o.idx + 1 < 2 ^ 64) :
    (h = [] → size (run M cap h) = 1) ∧
    (h ≠ [] → (∃ o ∈ h, size (run M cap h) = o.idx + 1) ∧ ∀ o ∈ h, o.idx < size (run M cap h)) := by
  have hr := run_rep hM cap h hS
  have hps := run_pos hM cap h hS hp
  constructor
  · rintro rfl; rfl
  · intro hne
    obtain ⟨o, ho⟩ := List.exists_mem_of_ne_nil h hne
    have hmax : 0 < occ h (run M cap h).max := by
      rcases hps.mpos with g | ⟨-, g⟩
      · exact g
      · have := occ_mem ho (hp o ho); rw [g] at this; omega
    obtain ⟨o', ho', he⟩ := occ_pos_mem hmax
    have h1 := hi o' ho'
    have hs : size (run M cap h) = o'.idx + 1 := by rw [size, ← he, u64_small h1]
    refine ⟨⟨o', ho', hs⟩, fun p hp' => ?_⟩
    rw [hs, he]
    by_contra hc
    have := hr.max p.idx (by omega)
    have := occ_mem hp' (hp p hp')
    omega

example : (∀ o ∈ sample, 0 < o.mul) ∧ (∀ o ∈ sample, o.idx + 1 < 2 ^ 64) ∧ size (run 255 4 sample) = 10 := by
  decide +kernel

/-! ### the flag returned -/

/-- `tally(i)` tells whether `i` is counted for the first time -/
theorem C24_new_one {M : Nat} (hM : 1 < M) (cap : Nat) (h : List Op) (hp : ∀ o ∈ h, 0 < o.mul) (i : Nat)
    (hS : all h + 1 < 2 ^ 64) :
    (tally1 M (run M cap h) i).2 = true ↔ occ h i = 0 := by
  have hr := run_rep hM cap h (by omega)
  have hps := run_pos hM cap h (by omega) hp
  rw [tally1_eq hM hr i hS, (tallyN_spec (by omega) hr i 1 hS).2, newN, decide_eq_true_eq]
  refine ⟨fun e => e.1, fun e => ⟨e, by omega, ?_⟩⟩
  cases hg : SMap.get (run M cap h).overflow i with
  | none => rfl
  | some v =>
    exfalso
    have hv := hps.opos i v hg
    by_cases c : i < (run M cap h).count.length
    · by_cases c2 : (run M cap h).count.getD i 0 = M
      · have := (hr.hi i c c2).2; omega
      · rw [(hr.lo i c c2).2] at hg; exact absurd hg (by simp)
    · have := (over_iff hr hps (i := i) (by omega)).2 ⟨v, (SMap.get_mem hr.sorted).1 hg⟩
      omega

example : (tally1 255 (run 255 4 sample) 9).2 = false ∧ (tally1 255 (run 255 4 sample) 1).2 = true ∧ occ sample 1 = 0 := by
  decide +kernel

/-- `tally(i,m)` does so as well provided `m` is below the largest value of a counter.  What is
missing for the full claim is the case of large `m`: see `C24_new_many_false`. -/
theorem C24_new_many_partial {M : Nat} (hM : 1 < M) (cap : Nat) (h : List Op) (hp : ∀ o ∈ h, 0 < o.mul) (i m : Nat)
    (hm : m < M) (hS : all h + m < 2 ^ 64) :
    (tallyN M (run M cap h) i m).2 = true ↔ occ h i = 0 := by
  have hr := run_rep hM cap h (by omega)
  have hps := run_pos hM cap h (by omega) hp
  rw [(tallyN_spec (by omega) hr i m hS).2, newN, decide_eq_true_eq]
  refine ⟨fun e => e.1, fun e => ⟨e, by omega, ?_⟩⟩
  cases hg : SMap.get (run M cap h).overflow i with
  | none => rfl
  | some v =>
    exfalso
    have hv := hps.opos i v hg
    by_cases c : i < (run M cap h).count.length
    · by_cases c2 : (run M cap h).count.getD i 0 = M
      · have := (hr.hi i c c2).2; omega
      · rw [(hr.lo i c c2).2] at hg; exact absurd hg (by simp)
    · have := (over_iff hr hps (i := i) (by omega)).2 ⟨v, (SMap.get_mem hr.sorted).1 hg⟩
      omega

example : (254:Nat) < 255 ∧ (tallyN 255 (run 255 4 sample) 2 254).2 = false ∧ (tallyN 255 (run 255 4 sample) 1 254).2 = true := by
  decide +kernel

/-- Finding F12: when `i` was passed over before and is first counted 255 times or more at once,
`tally(i,m)` says it is not new. -/
theorem C24_new_many_false : ∃ h : List Op, all h + 300 < 2 ^ 64 ∧ (∀ o ∈ h, 0 < o.mul) ∧ occ h 0 = 0 ∧
    (tallyN 255 (run 255 4 h) 0 300).2 = false :=
  ⟨[.one 2], by decide +kernel, by decide, by decide, by decide +kernel⟩

/-! ### iteration -/

/-- `advance(i)` moves to the next index counted; when there is none it moves to `size()`.  The
assertion in it holds and it does not go beyond the table. -/
theorem C24_advance {M : Nat} (hM : 1 < M) (cap : Nat) (h : List Op) (hS : all h < 2 ^ 64)
    (hp : ∀ o ∈ h, 0 < o.mul) (nd : Bool) (i : Nat) :
    ∃ j, advance nd (run M cap h) i = .ok j ∧
      (((∀ l, i < l → occ h l = 0) ∧ j = size (run M cap h)) ∨
       (i < j ∧ 0 < occ h j ∧ ∀ l, i < l → l < j → occ h l = 0)) := by
  have hr := run_rep hM cap h hS
  rcases advance_spec (by omega) hr (run_pos hM cap h hS hp) nd i with ⟨h1, h2⟩ | ⟨j, h1, h2, h3, h4, h5⟩
  · exact ⟨_, h2, .inl ⟨fun l hl => hr.max l (by omega), rfl⟩⟩
  · exact ⟨j, h1, .inr ⟨h2, h4, h5⟩⟩

example : advance false (run 255 4 sample) 3 = .ok 7 ∧ advance false (run 255 4 sample) 9 = .ok 10 := by decide +kernel

/-- Counting something zero times breaks iteration: the search runs off the end of the table. -/
theorem C24_advance_zero_false : advance false (run 255 4 [.one 0, .many 3 0]) 0 = .assertFail ∧
    advance true (run 255 4 [.one 0, .many 3 0]) 0 = .undefined := by decide +kernel

/-- `lower(i)` moves down to the previous index counted, and says whether there is one -/
theorem C24_lower {M : Nat} (hM : 1 < M) (cap : Nat) (h : List Op) (hS : all h < 2 ^ 64)
    (hp : ∀ o ∈ h, 0 < o.mul) (i : Nat) :
    ((lower (run M cap h) i).2 = false ∧ ∀ j, j < i → occ h j = 0) ∨
    ((lower (run M cap h) i).2 = true ∧ (lower (run M cap h) i).1 < i ∧ 0 < occ h (lower (run M cap h) i).1 ∧
      ∀ l, (lower (run M cap h) i).1 < l → l < i → occ h l = 0) := by
  rcases lower_spec (by omega) (run_rep hM cap h hS) (run_pos hM cap h hS hp) i with g | ⟨j, h1, h2, h3, h4⟩
  · exact .inl g
  · rw [h1]; exact .inr ⟨rfl, h2, h3, h4⟩

example : lower (run 255 4 sample) 10 = (9, true) ∧ lower (run 255 4 sample) 7 = (3, true) ∧
    (lower (run 255 4 sample) 2).2 = false := by decide +kernel

/-! ### the histogram of the multiplicities -/

theorem count_const {p : Nat → Prop} [DecidablePred p] {a b : Nat} (hab : a ≤ b) (h : ∀ l, a ≤ l → l < b → ¬ p l) :
    Nat.count p b = Nat.count p a := by
  induction b, hab using Nat.le_induction with
  | base => rfl
  | succ b hb ih => rw [Nat.count_succ, if_neg (h b hb (by omega)), Nat.add_zero, ih (fun l h1 h2 => h l h1 (by omega))]

/-- what has been counted in the derived table when the loop arrives at `i` -/
def derivedTo (f : Nat → Nat) (i : Nat) : Nat → Nat := fun k =>
  (if k = 0 then 1 else 0) + Nat.count (fun l => (l = 0 ∨ 0 < f l) ∧ f l = k) i

theorem derivedTo_succ (f : Nat → Nat) {i : Nat} (hi : i = 0 ∨ 0 < f i) :
    derivedTo f (i + 1) = bump (derivedTo f i) (f i) 1 := by
  funext k
  rw [derivedTo, bump, derivedTo, Nat.count_succ]
  by_cases c : k = f i
  · rw [if_pos c, if_pos (show (i = 0 ∨ 0 < f i) ∧ f i = k from ⟨hi, c.symm⟩)]; omega
  · rw [if_neg c, if_neg (show ¬ ((i = 0 ∨ 0 < f i) ∧ f i = k) from fun e => c e.2.symm)]; omega

theorem derivedTo_const (f : Nat → Nat) {i j : Nat} (hij : i + 1 ≤ j) (h : ∀ l, i < l → l < j → f l = 0) :
    derivedTo f j = derivedTo f (i + 1) := by
  funext k
  rw [derivedTo, derivedTo, count_const hij]
  intro l h1 h2 h3
  have := h l (by omega) h2
  omega

theorem derivedLoop_spec {M M' : Nat} (hM : 0 < M) (hM' : 1 < M') (nd : Bool) {t : Tally} {f : Nat → Nat} {S : Nat}
    (h : Rep M t f S) (hp : Pos t f) (hmax : t.max + 3 < 2 ^ 64) (k i : Nat) (mu : Tally) (S' : Nat)
    (hk : t.max + 1 < i + k) (hi : (i ≤ t.max ∧ (i = 0 ∨ 0 < f i)) ∨ i = t.max + 1)
    (hmu : Rep M' mu (derivedTo f i) S') (hS' : S' ≤ i + 1) :
    ∃ mu' S'', derivedLoop M M' nd t k i mu = .ok mu' ∧ Rep M' mu' (derivedTo f (t.max + 1)) S'' := by
  have hsize : size t = t.max + 1 := u64_small (by omega)
  induction k generalizing i mu S' with
  | zero => omega
  | succ k ih =>
    rw [derivedLoop]
    rcases hi with ⟨hi, hv⟩ | rfl
    · rw [if_pos (by omega), multiplicity_eq h]
      rw [Res.ok_bind, tally1_eq hM' hmu _ (by omega)]
      have hstep := (tallyN_spec (by omega) hmu (f i) 1 (by omega)).1
      rw [← derivedTo_succ f hv] at hstep
      rcases advance_spec hM h hp nd i with ⟨h1, h2⟩ | ⟨j, h1, h2, h3, h4, h5⟩
      · rw [h2, Res.ok_bind]
        obtain rfl : i = t.max := by omega
        rw [hsize]
        exact ih _ _ _ (by omega) (.inr rfl) hstep (by omega)
      · rw [h1, Res.ok_bind]
        rw [← derivedTo_const f h2 h5] at hstep
        exact ih _ _ _ (by omega) (.inl ⟨h3, .inr h4⟩) hstep (by omega)
    · rw [if_neg (by omega)]
      exact ⟨mu, S', rfl, hmu⟩

/-- `derived`: for `k>0` the multiplicity of `k` in the derived table is the number of indices
counted `k` times.  (For `k=0` it is 1, or 2 when index 0 was not counted.) -/
theorem C24_derived {M M' : Nat} (hM : 1 < M) (hM' : 1 < M') (cap cap' : Nat) (h : List Op) (hS : all h < 2 ^ 64)
    (hp : ∀ o ∈ h, 0 < o.mul) (hi : ∀ o ∈ h, o.idx + 3 < 2 ^ 64) (nd : Bool) :
    ∃ mu, derived M M' nd (run M cap h) cap' = .ok mu ∧
      (∀ k, 0 < k → ∀ n, (∀ o ∈ h, o.idx < n) → multiplicity M' mu k = .ok (Nat.count (fun i => occ h i = k) n)) ∧
      multiplicity M' mu 0 = .ok (if occ h 0 = 0 then 2 else 1) := by
  have hr := run_rep hM cap h hS
  have hps := run_pos hM cap h hS hp
  have hmax : (run M cap h).max + 3 < 2 ^ 64 := by
    rcases hps.mpos with g | ⟨g, -⟩
    · obtain ⟨o, ho, e⟩ := occ_pos_mem g
      rw [← e]; exact hi o ho
    · rw [g]; decide
  have h0 : Rep M' (tally1 M' (make cap') 0).1 (derivedTo (occ h) 0) (0 + 1) := by
    have := (tallyN_spec (by omega) (rep_make M' cap') 0 1 (by decide)).1
    rw [← tally1_eq hM' (rep_make M' cap') 0 (by decide)] at this
    have e : derivedTo (occ h) 0 = bump (fun _ => 0) 0 1 := by
      funext k; simp only [derivedTo, bump, Nat.count_zero]; split <;> rfl
    rw [e]; exact this
  obtain ⟨mu, S'', h1, h2⟩ := derivedLoop_spec (by omega) hM' nd hr hps hmax ((run M cap h).max + 2) 0 _ _
    (by omega) (.inl ⟨Nat.zero_le _, .inl rfl⟩) h0 (by omega)
  refine ⟨mu, h1, fun k hk n hn => ?_, ?_⟩
  · rw [multiplicity_eq h2, derivedTo, if_neg (by omega), Nat.zero_add]
    congr 1
    have e1 : Nat.count (fun l => (l = 0 ∨ 0 < occ h l) ∧ occ h l = k) ((run M cap h).max + 1) =
        Nat.count (fun l => occ h l = k) ((run M cap h).max + 1) := by
      congr 1
      funext l
      rw [eq_iff_iff]
      constructor
      · exact fun e => e.2
      · exact fun e => ⟨.inr (by omega), e⟩
    have e3 : ∀ l, n ≤ l → occ h l = 0 := by
      intro l hl
      by_contra hc
      obtain ⟨o, ho, e⟩ := occ_pos_mem (show 0 < occ h l by omega)
      have := hn o ho
      omega
    have e4 : ∀ l, (run M cap h).max + 1 ≤ l → occ h l = 0 := fun l hl => hr.max l (by omega)
    rw [e1]
    rcases Nat.le_total n ((run M cap h).max + 1) with hc | hc
    · exact count_const hc (fun l h1 _ h3 => by have := e3 l h1; omega)
    · exact (count_const hc (fun l h1 _ h3 => by have := e4 l h1; omega)).symm
  · rw [multiplicity_eq h2, derivedTo, if_pos rfl]
    congr 1
    rw [count_const (a := 1) (by omega) (fun l h1 _ h3 => by omega), Nat.count_succ, Nat.count_zero]
    by_cases c : occ h 0 = 0
    · rw [if_pos c, if_pos ⟨.inl rfl, c⟩]
    · rw [if_neg c, if_neg (fun e => c e.2)]

example : (∀ o ∈ sample, o.idx + 3 < 2 ^ 64) ∧ Nat.count (fun i => occ sample i = 255) 10 = 1 ∧
    (derived 255 255 false (run 255 4 sample) 10).bind (fun mu => multiplicity 255 mu 255) = .ok 1 := by decide +kernel

end Verif.Tally
