import Verif.F2.Mod2Basis
import Verif.F2.Mod2Spec
import Verif.F2.Props
/-
C35: `Mod2_System` solves linear systems mod 2.

The code has a defect (finding F18): `add` tests `eq.lhs.empty()` for the equation under construction, whose left hand side
is still empty, instead of `lhs.empty()`, so that after any equation that is not implied by the previous ones the system is
considered inconsistent.  Theorems with `fix = false` are about the code; those named `C35_repaired_…` are about the code
with only that test replaced.
-/
namespace Verif.F2
open Verif

theorem Lead.exists {x : Nat} (h0 : x ≠ 0) : ∃ p, Lead x p := by
  have hex : ∃ i, x.testBit i = true := by
    by_contra hc
    push Not at hc
    exact h0 (Nat.eq_of_testBit_eq fun i => by rw [Nat.zero_testBit]; simpa using hc i)
  refine ⟨Nat.find hex, Nat.find_spec hex, fun q hq => ?_⟩
  simpa using Nat.find_min hex hq

theorem dotN_extend {n m x : Nat} (hx : x < 2 ^ n) (u : Nat → ZMod 2) : dotN (n + m) (vec x) u = dotN n (vec x) u := by
  rw [dotN_members, dotN_members, bmMembers_extend hx]

theorem dotN_terms {n x : Nat} {l : List Nat} (hl : ∀ i ∈ l, i < n) (hx : ∀ i, x.testBit i = decide (i ∈ l)) (u : Nat → ZMod 2) :
    dotN n (vec x) u = ∑ i ∈ l.toFinset, u i := by
  unfold dotN
  rw [← Finset.sum_subset (s₁ := l.toFinset) (fun i hi => Finset.mem_range.2 (hl i (List.mem_toFinset.1 hi)))]
  · apply Finset.sum_congr rfl
    intro i hi
    rw [vec_eq_one.2 (by rw [hx]; simpa using hi), one_mul]
  · intro i _ hi
    rw [vec_eq_zero.2 (by rw [hx]; simpa using hi), zero_mul]

/-- `s` holds the equations `t` in echelon form in `n` unknowns -/
structure Good (s : Sys) (n : Nat) (t : Eqs) : Prop where
  plen : s.pivot.length = n
  eqs : s.eqn = enc n t
  tri : Tri n (prs t)
  piv : ∀ (p k : Nat), s.pivot[p]? = some (some k) ↔ ∃ y, t[k]? = some y ∧ y.1.2 = p

theorem enc_length (n : Nat) (t : Eqs) : (enc n t).length = t.length := List.length_map _

theorem Good.consistent {s : Sys} {n : Nat} {t : Eqs} (h : Good s n t) : s.consistent = true := by
  unfold Sys.consistent
  rw [h.eqs]
  unfold enc
  rw [List.getLast?_map]
  cases ht : t.getLast? with
  | none => rfl
  | some y =>
    have hy : y ∈ t := List.mem_of_getLast? ht
    have hm : y.1 ∈ prs t := List.mem_map_of_mem hy
    obtain ⟨l, e, _⟩ := bmMembers_head (h.tri.lt _ hm) (h.tri.lead _ hm)
    simp [e]

theorem Good.empty : Good Sys.empty 0 [] := ⟨rfl, rfl, ⟨by simp [prs], by simp [prs], List.Pairwise.nil⟩, by simp [Sys.empty]⟩

theorem Sat.extend {n m : Nat} {t : Eqs} (h : Tri n (prs t)) (c : Nat → ZMod 2) : Sat (n + m) t c ↔ Sat n t c := by
  unfold Sat
  refine forall₂_congr fun y hy => ?_
  rw [dotN_extend (h.lt y.1 (List.mem_map_of_mem hy))]

theorem Good.extend {s : Sys} {n : Nat} {t : Eqs} (h : Good s n t) (m : Nat) : Good (s.extend m).2 (n + m) t := by
  refine ⟨by simp [Sys.extend, h.plen], ?_, ⟨fun x hx => ?_, h.tri.lead, h.tri.tri⟩, fun p k => ?_⟩
  · change s.eqn = _
    rw [h.eqs]
    unfold enc
    apply List.map_congr_left
    intro y hy
    rw [bmMembers_extend (h.tri.lt y.1 (List.mem_map_of_mem hy))]
  · exact Nat.lt_of_lt_of_le (h.tri.lt x hx) (Nat.pow_le_pow_right (by omega) (by omega))
  · change (s.pivot ++ List.replicate m none)[p]? = _ ↔ _
    rw [← h.piv, List.getElem?_append]
    by_cases a : p < s.pivot.length
    · rw [if_pos a]
    · rw [if_neg a, List.getElem?_eq_none (by omega : s.pivot.length ≤ p), List.getElem?_replicate]
      by_cases b : p - s.pivot.length < m <;> simp [b]

theorem Good.reduce (nd : Bool) {s : Sys} {n : Nat} {t : Eqs} (h : Good s n t) : ∃ s' t', s.reduce nd = .ok s' ∧ Good s' n t' ∧
    Red n (prs t') ∧ pivs t' = pivs t ∧ ∀ c, Sat n t' c ↔ Sat n t c := by
  obtain ⟨t', cols, h1, h2, h3, _, _, _, h7⟩ := reduceEqs_spec nd (pivot := s.pivot) t 0 h.tri (fun k y hk => by
    rw [(h.piv y.1.2 k).2 ⟨y, hk, rfl⟩, Nat.zero_add])
  refine ⟨{ s with eqn := enc n t' }, t', ?_, ⟨h.plen, rfl, h2.tri, fun p k => ?_⟩, h2, h3, h7⟩
  · unfold Sys.reduce
    rw [Res.assertIn_bind nd h.consistent, Sys.size, h.plen, h.eqs, h1]
    rfl
  · change s.pivot[p]? = _ ↔ _
    rw [h.piv]
    have e : ∀ t : Eqs, (∃ y, t[k]? = some y ∧ y.1.2 = p) ↔ (pivs t)[k]? = some p := by
      intro t
      rw [pivs, List.getElem?_map, Option.map_eq_some_iff]
    rw [e, e, h3]

theorem Good.aSolution (nd : Bool) {s : Sys} {n : Nat} {t : Eqs} (h : Good s n t) : ∃ b, s.aSolution nd = .ok b ∧ b < 2 ^ n ∧ Sat n t (vec b) := by
  unfold Sys.aSolution
  rw [Res.assertIn_bind nd h.consistent, Sys.size, h.plen, h.eqs]
  exact solveLoop_spec nd t h.tri

theorem Good.solutionBasis (nd : Bool) {s : Sys} {n : Nat} {t : Eqs} (h : Good s n t) : ∃ b s' t', s.solutionBasis nd = .ok (b, s') ∧
    Good s' n t' ∧ (∀ c, Sat n t' c ↔ Sat n t c) ∧ b.length = n - t.length ∧ (∀ x ∈ b, x < 2 ^ n) ∧ Independent (b.map fun x => ⟨x, n⟩) ∧
    ∀ u, u ∈ Span (b.map fun x => ⟨x, n⟩) ↔ (∀ i, n ≤ i → u i = 0) ∧ ∀ y ∈ t', dotN n (vec y.1.1) u = 0 := by
  obtain ⟨s', t', h1, h2, h3, h4, h5⟩ := h.reduce nd
  obtain ⟨J, inx, g1, g2, g3, g4, g5, g6⟩ := basisInit_spec nd (n := n) s'.pivot 0 [] [] (by rw [Nat.zero_add, h2.plen]) rfl (by simp) (by simp) List.nodup_nil
  have hJ : ∀ i, i ∈ J ↔ i < n ∧ i ∉ Verif.F2.piv (prs t') := by
    intro i
    have hpv : Verif.F2.piv (prs t') = pivs t' := by unfold Verif.F2.piv prs pivs; rw [List.map_map]; rfl
    rw [g6, hpv]
    constructor
    · rintro (h | ⟨m, hm, h⟩)
      · cases h
      · have hi : i = m := by omega
        subst hi
        have hlt := (List.getElem?_eq_some_iff.1 h).1
        rw [h2.plen] at hlt
        refine ⟨hlt, fun hp => ?_⟩
        obtain ⟨y, hy, e⟩ := List.mem_map.1 hp
        obtain ⟨k, hk⟩ := List.mem_iff_getElem?.1 hy
        have := (h2.piv i k).2 ⟨y, hk, e⟩
        rw [h] at this; cases this
    · rintro ⟨hi, hp⟩
      right
      refine ⟨i, by omega, ?_⟩
      have hlt : i < s'.pivot.length := by rw [h2.plen]; exact hi
      rw [List.getElem?_eq_getElem hlt]
      cases ho : s'.pivot[i] with
      | none => rfl
      | some k =>
        exfalso
        have : s'.pivot[i]? = some (some k) := by rw [List.getElem?_eq_getElem hlt, ho]
        obtain ⟨y, hy, e⟩ := (h2.piv i k).1 this
        exact hp (e ▸ List.mem_map_of_mem (f := fun z : (Nat × Nat) × Bool => z.1.2) (List.mem_of_getElem? hy))
  have hfree : ∀ y ∈ t', ∀ i, y.1.1.testBit i = true → i ≠ y.1.2 → i ∈ J := by
    intro y hy i hb hne
    have hm : y.1 ∈ prs t' := List.mem_map_of_mem hy
    refine (hJ i).2 ⟨testBit_lt (h3.lt _ hm) hb, fun hp => ?_⟩
    obtain ⟨z, hz, rfl⟩ := List.mem_map.1 hp
    rw [h3.bit hm hz] at hb
    exact hne (of_decide_eq_true hb).symm
  obtain ⟨k, r1, r2, r3, r4⟩ := basisLoop_spec nd g4 g5 g3 t' h3 hfree (fun i => 1 <<< i) (fun j _ => by rw [testBit_one_shift]; simp)
    (fun j hj => by
      have := g5 j hj
      rw [Nat.shiftLeft_eq, Nat.one_mul]
      exact Nat.pow_lt_pow_right (by omega) this)
  have hpv : Verif.F2.piv (prs t') = pivs t' := by unfold Verif.F2.piv prs pivs; rw [List.map_map]; rfl
  have hKV : ∀ j ∈ J, KV n (prs t') j (k j) := by
    intro j hj
    have hjp := ((hJ j).1 hj).2
    refine ⟨r2 j hj, ?_, ?_⟩
    · intro x hx
      obtain ⟨y, hy, rfl⟩ := List.mem_map.1 hx
      have hne : j ≠ y.1.2 := fun e => hjp (e ▸ List.mem_map_of_mem (f := Prod.snd) hx)
      rw [r3 j hj y hy hne, testBit_one_shift]; simp [hne]
    · intro i hi
      rw [r4 j hj i (hpv ▸ hi), testBit_one_shift]
      simp [eq_comm]
  refine ⟨J.map k, s', t', ?_, h2, h5, ?_, ?_, ?_, ?_⟩
  · unfold Sys.solutionBasis
    rw [h1, Res.ok_bind, Sys.size, h2.plen]
    rw [List.map_nil] at g1
    rw [g1, Res.ok_bind]
    simp only
    rw [h2.eqs, r1]
    rfl
  · rw [List.length_map]
    have hnd : (J ++ pivs t').Nodup := by
      rw [List.nodup_append]
      refine ⟨g4, ?_, ?_⟩
      · have := h3.distinct
        rw [← hpv]
        exact List.pairwise_map.2 this
      · rintro a ha b hb rfl
        exact ((hJ a).1 ha).2 (hpv ▸ hb)
    have hperm : (J ++ pivs t').Perm (List.range n) := by
      rw [List.perm_ext_iff_of_nodup hnd List.nodup_range]
      intro a
      rw [List.mem_append, hJ, List.mem_range, ← hpv]
      constructor
      · rintro (⟨h, _⟩ | h)
        · exact h
        · obtain ⟨x, hx, rfl⟩ := List.mem_map.1 h
          exact h3.pos hx
      · intro h
        by_cases hp : a ∈ Verif.F2.piv (prs t')
        · exact Or.inr hp
        · exact Or.inl ⟨h, hp⟩
    have := hperm.length_eq
    rw [List.length_append, List.length_range, h4, pivs, List.length_map] at this
    omega
  · intro x hx
    obtain ⟨j, hj, rfl⟩ := List.mem_map.1 hx
    exact r2 j hj
  · rw [List.map_map]
    exact KV.independent (k := k) g4 fun j hj => ⟨((hJ j).1 hj).2, hKV j hj⟩
  · intro u
    have hs := KV.span h3 (k := k) (fun j hjn hjp => hKV j ((hJ j).2 ⟨hjn, hjp⟩)) u
    have e : {w | ∃ j < n, j ∉ Verif.F2.piv (prs t') ∧ vec (k j) = w} = {w | ∃ b ∈ (J.map k).map (fun x => (⟨x, n⟩ : BV)), vec b.data = w} := by
      ext w
      constructor
      · rintro ⟨j, hjn, hjp, e⟩
        exact ⟨⟨k j, n⟩, List.mem_map_of_mem (List.mem_map_of_mem ((hJ j).2 ⟨hjn, hjp⟩)), e⟩
      · rintro ⟨b, hb, e⟩
        obtain ⟨x, hx, rfl⟩ := List.mem_map.1 hb
        obtain ⟨j, hj, rfl⟩ := List.mem_map.1 hx
        exact ⟨j, ((hJ j).1 hj).1, ((hJ j).1 hj).2, e⟩
    rw [Span, ← e, hs]
    refine and_congr_right fun _ => ?_
    constructor
    · intro hh y hy
      exact hh y.1 (List.mem_map_of_mem hy)
    · intro hh x hx
      obtain ⟨y, hy, rfl⟩ := List.mem_map.1 hx
      exact hh y hy

/-! ### `add` -/

theorem Sat.append {n : Nat} {t t' : Eqs} {c : Nat → ZMod 2} : Sat n (t ++ t') c ↔ Sat n t c ∧ Sat n t' c := by
  unfold Sat
  rw [List.forall_mem_append]

theorem Good.add (nd : Bool) {s : Sys} {n : Nat} {t : Eqs} (h : Good s n t) {l : List Nat} (hl : ∀ i ∈ l, i < n) (r : Nat) :
    ∃ b s', s.add nd true l r = .ok (b, s') ∧
      ((∃ t', Good s' n t' ∧ ∀ c, Sat n t' c ↔ Sat n t c ∧ ∑ i ∈ l.toFinset, c i = (r : ZMod 2)) ∨
        (s'.pivot.length = n ∧ s'.consistent = false ∧ ∀ c, Sat n t c → ∑ i ∈ l.toFinset, c i ≠ (r : ZMod 2))) := by
  obtain ⟨x, h1, h2⟩ := bmOf_spec nd l hl 0
  have hxb : ∀ i, x.testBit i = decide (i ∈ l) := by intro i; rw [h2, Nat.zero_testBit, Bool.false_or]
  have hx : x < 2 ^ n := lt_of_bits fun i hi => by rw [hxb]; simp; intro hc; have := hl i hc; omega
  obtain ⟨x', r', a1, a2, a3, a4, a5⟩ := addLoop_spec nd t h.tri x r hx
  have hdot : ∀ c, Sat n t c → dotN n (vec x') c + (r' : ZMod 2) = ∑ i ∈ l.toFinset, c i + (r : ZMod 2) := by
    intro c hc
    rw [a5 c hc, dotN_terms hl hxb]
  have hz : ∀ a b u v : ZMod 2, a + b = u + v → (a = b ↔ u = v) := by decide
  unfold Sys.add
  rw [if_neg (by rw [h.consistent]; simp), Sys.size, h.plen, h1, Res.ok_bind, h.eqs, a1, Res.ok_bind]
  simp only [if_true]
  by_cases c1 : x' = 0 ∧ r' % 2 = 0
  · rw [if_pos c1]
    refine ⟨true, s, rfl, Or.inl ⟨t, h, fun c => ?_⟩⟩
    refine ⟨fun hc => ⟨hc, ?_⟩, fun hc => hc.1⟩
    rw [← hz _ _ _ _ (hdot c hc), c1.1, vec_zero, cast_mod, c1.2]
    unfold dotN; simp; rfl
  · rw [if_neg c1]
    by_cases c2 : x' = 0
    · rw [if_pos (by simp [c2])]
      refine ⟨false, _, rfl, Or.inr ⟨h.plen, by simp [Sys.consistent], fun c hc => ?_⟩⟩
      rw [Ne, ← hz _ _ _ _ (hdot c hc), c2, vec_zero, cast_mod]
      have : r' % 2 ≠ 0 := fun e => c1 ⟨c2, e⟩
      unfold dotN; simp [this, bz]
    · rw [if_neg (by simp [c2])]
      obtain ⟨p, hp⟩ := Lead.exists c2
      have hpn : p < n := testBit_lt a2 hp.1
      rw [get_head n a2 hp, Res.ok_bind, Vec.put_ok (by rw [h.plen]; exact hpn), Res.ok_bind]
      refine ⟨true, _, rfl, Or.inl ⟨t ++ [((x', p), decide (r' % 2 ≠ 0))], ⟨by simp [h.plen], ?_, ⟨?_, ?_, ?_⟩, ?_⟩, fun c => ?_⟩⟩
      · simp only
        unfold enc
        rw [List.map_append]
        congr 2
        rcases Nat.mod_two_eq_zero_or_one r' with e | e <;> simp [e]
      · intro y hy
        rw [prs, List.map_append, List.mem_append] at hy
        rcases hy with hy | hy
        · exact h.tri.lt y hy
        · rw [List.mem_singleton.1 hy]; exact a2
      · intro y hy
        rw [prs, List.map_append, List.mem_append] at hy
        rcases hy with hy | hy
        · exact h.tri.lead y hy
        · rw [List.mem_singleton.1 hy]; exact hp
      · rw [prs, List.map_append, List.pairwise_append]
        refine ⟨h.tri.tri, by simp, ?_⟩
        intro y hy z hz
        obtain ⟨w, hw, rfl⟩ := List.mem_map.1 hy
        rw [List.mem_singleton.1 hz]
        exact a3 w hw
      · intro q k
        simp only
        rw [List.getElem?_set, enc_length]
        have hpt : ∀ y ∈ t, y.1.2 ≠ p := fun y hy e => by
          have := a3 y hy
          rw [e, hp.1] at this; cases this
        by_cases e : p = q
        · subst e
          rw [if_pos rfl, if_pos (by rw [h.plen]; exact hpn)]
          constructor
          · intro hh
            have : t.length = k := by simpa using hh
            subst this
            exact ⟨((x', p), decide (r' % 2 ≠ 0)), by simp, rfl⟩
          · rintro ⟨y, hy, e⟩
            rw [List.getElem?_append] at hy
            by_cases hk : k < t.length
            · rw [if_pos hk] at hy
              exact absurd e (hpt y (List.mem_of_getElem? hy))
            · rw [if_neg hk] at hy
              have := (List.getElem?_eq_some_iff.1 hy).1
              rw [List.length_singleton] at this
              congr 2; omega
        · rw [if_neg e, h.piv]
          constructor
          · rintro ⟨y, hy, ey⟩
            have := (List.getElem?_eq_some_iff.1 hy).1
            exact ⟨y, by rw [List.getElem?_append_left this]; exact hy, ey⟩
          · rintro ⟨y, hy, ey⟩
            rw [List.getElem?_append] at hy
            by_cases hk : k < t.length
            · rw [if_pos hk] at hy
              exact ⟨y, hy, ey⟩
            · rw [if_neg hk] at hy
              have := (List.getElem?_eq_some_iff.1 hy).1
              rw [List.length_singleton] at this
              rw [show k - t.length = 0 by omega] at hy
              have : ((x', p), decide (r' % 2 ≠ 0)) = y := by simpa using hy
              rw [← this] at ey
              exact absurd ey e
      · rw [Sat.append]
        refine and_congr_right fun hc => ?_
        rw [← hz _ _ _ _ (hdot c hc)]
        unfold Sat
        rw [List.forall_mem_singleton, cast_mod]

theorem Good.add_code (nd : Bool) {s : Sys} {n : Nat} (h : Good s n []) {l : List Nat} (hl : ∀ i ∈ l, i < n) (r : Nat) :
    ∃ b s', s.add nd false l r = .ok (b, s') ∧
      ((Good s' n [] ∧ l = [] ∧ r % 2 = 0) ∨ (s'.pivot.length = n ∧ s'.consistent = false ∧ ¬ (l = [] ∧ r % 2 = 0))) := by
  obtain ⟨x, h1, h2⟩ := bmOf_spec nd l hl 0
  have hxb : ∀ i, x.testBit i = decide (i ∈ l) := by intro i; rw [h2, Nat.zero_testBit, Bool.false_or]
  have hx0 : x = 0 ↔ l = [] := by
    constructor
    · rintro rfl
      rw [List.eq_nil_iff_forall_not_mem]
      intro i hi
      have := hxb i
      rw [Nat.zero_testBit] at this
      simp [hi] at this
    · rintro rfl
      apply Nat.eq_of_testBit_eq
      intro i
      rw [hxb]; simp
  unfold Sys.add
  rw [if_neg (by rw [h.consistent]; simp), Sys.size, h.plen, h1, Res.ok_bind, h.eqs]
  rw [show enc n [] = [] from rfl, addLoop, Res.ok_bind]
  simp only [Bool.false_eq_true, if_false]
  by_cases c1 : x = 0 ∧ r % 2 = 0
  · rw [if_pos c1]
    exact ⟨true, s, rfl, Or.inl ⟨h, hx0.1 c1.1, c1.2⟩⟩
  · rw [if_neg c1]
    refine ⟨false, _, rfl, Or.inr ⟨h.plen, by simp [Sys.consistent], ?_⟩⟩
    rw [hx0] at c1
    exact c1

/-! ### Histories -/

theorem run_append (nd fix : Bool) (ops : List SysOp) (op : SysOp) (s : Sys) :
    Sys.run nd fix (ops ++ [op]) s = (Sys.run nd fix ops s >>= fun s => s.step nd fix op) := by
  induction ops generalizing s with
  | nil =>
    rw [List.nil_append, Sys.run, Sys.run, Res.ok_bind]
    cases s.step nd fix op <;> rfl
  | cons o ops ih =>
    rw [List.cons_append, Sys.run, Sys.run]
    cases s.step nd fix o with
    | ok s' => rw [Res.ok_bind, Res.ok_bind]; exact ih s'
    | _ => rfl

theorem unknowns_append (ops : List SysOp) (op : SysOp) : unknowns (ops ++ [op]) = unknowns ops + unknowns [op] := by
  induction ops with
  | nil => simp [unknowns]
  | cons o ops ih =>
    rw [List.cons_append]
    cases o <;> (simp only [unknowns, ih]; try omega)

theorem Solves_append (ops : List SysOp) (op : SysOp) (x : Nat → ZMod 2) : Solves (ops ++ [op]) x ↔ Solves ops x ∧ Solves [op] x := by
  unfold Solves
  constructor
  · intro h
    exact ⟨fun l r hm => h l r (List.mem_append_left _ hm), fun l r hm => h l r (List.mem_append_right _ hm)⟩
  · rintro ⟨h1, h2⟩ l r hm
    rcases List.mem_append.1 hm with hm | hm
    · exact h1 l r hm
    · exact h2 l r hm

theorem Valid.init {ops : List SysOp} {op : SysOp} (h : Valid (ops ++ [op])) : Valid ops ∧ Proper ops op := by
  refine ⟨fun pre o post e => h pre o (post ++ [op]) (by rw [e]; simp), h ops op [] rfl⟩

theorem Solves_hom {ops : List SysOp} {x : Nat → ZMod 2} (hx : Solves ops x) (u : Nat → ZMod 2) : Solves ops (x + u) ↔ SolvesHom ops u := by
  unfold Solves SolvesHom
  refine forall₂_congr fun l r => forall_congr' fun hm => ?_
  have : ∑ i ∈ l.toFinset, (x + u) i = (r : ZMod 2) + ∑ i ∈ l.toFinset, u i := by
    rw [← hx l r hm, ← Finset.sum_add_distrib]; rfl
  rw [this]
  exact add_eq_left

/-- the state of the repaired program -/
theorem repaired_run (nd : Bool) (ops : List SysOp) (hv : Valid ops) : ∃ s, Sys.run nd true ops .empty = .ok s ∧
    ((∃ t, Good s (unknowns ops) t ∧ ∀ c, Sat (unknowns ops) t c ↔ Solves ops c) ∨
      (s.pivot.length = unknowns ops ∧ s.consistent = false ∧ ∀ c, ¬ Solves ops c)) := by
  induction ops using List.reverseRecOn with
  | nil => exact ⟨.empty, rfl, Or.inl ⟨[], Good.empty, fun c => by simp [Sat, Solves]⟩⟩
  | append_singleton ops op ih =>
    obtain ⟨s, h1, h2⟩ := ih hv.init.1
    have hp := hv.init.2
    rw [run_append, h1, Res.ok_bind, unknowns_append]
    cases op with
    | extend m =>
      have hun : unknowns [SysOp.extend m] = m := rfl
      have hsv : ∀ c, Solves (ops ++ [SysOp.extend m]) c ↔ Solves ops c := by
        intro c
        rw [Solves_append]
        exact and_iff_left (by simp [Solves])
      refine ⟨_, rfl, ?_⟩
      rw [hun]
      rcases h2 with ⟨t, g1, g2⟩ | ⟨g1, g2, g3⟩
      · exact Or.inl ⟨t, g1.extend m, fun c => by rw [Sat.extend g1.tri, g2, hsv]⟩
      · exact Or.inr ⟨by simp [Sys.extend, g1], g2, fun c => by rw [hsv]; exact g3 c⟩
    | add l r =>
      have hun : unknowns [SysOp.add l r] = 0 := rfl
      rw [hun, Nat.add_zero]
      have hsv : ∀ c, Solves (ops ++ [SysOp.add l r]) c ↔ Solves ops c ∧ ∑ i ∈ l.toFinset, c i = (r : ZMod 2) := by
        intro c
        rw [Solves_append]
        refine and_congr_right fun _ => ?_
        unfold Solves
        constructor
        · intro h; exact h l r List.mem_cons_self
        · intro h l' r' hm
          have e := List.mem_singleton.1 hm
          injection e with e1 e2
          subst e1 e2
          exact h
      rcases h2 with ⟨t, g1, g2⟩ | ⟨g1, g2, g3⟩
      · obtain ⟨b, s', a1, a2⟩ := g1.add nd (l := l) hp r
        refine ⟨s', by rw [Sys.step, a1]; rfl, ?_⟩
        rcases a2 with ⟨t', k1, k2⟩ | ⟨k1, k2, k3⟩
        · exact Or.inl ⟨t', k1, fun c => by rw [k2, g2, hsv]⟩
        · exact Or.inr ⟨k1, k2, fun c hc => by rw [hsv] at hc; exact k3 c ((g2 c).2 hc.1) hc.2⟩
      · refine ⟨s, ?_, Or.inr ⟨g1, g2, fun c hc => by rw [hsv] at hc; exact g3 c hc.1⟩⟩
        rw [Sys.step, Sys.add, if_pos (by rw [g2]; rfl)]; rfl
    | reduce =>
      have hun : unknowns [SysOp.reduce] = 0 := rfl
      rw [hun, Nat.add_zero]
      have hsv : ∀ c, Solves (ops ++ [SysOp.reduce]) c ↔ Solves ops c := by
        intro c
        rw [Solves_append]
        exact and_iff_left (by simp [Solves])
      obtain ⟨x, hx⟩ := hp
      rcases h2 with ⟨t, g1, g2⟩ | ⟨g1, g2, g3⟩
      · obtain ⟨s', t', a1, a2, _, _, a5⟩ := g1.reduce nd
        exact ⟨s', a1, Or.inl ⟨t', a2, fun c => by rw [a5, g2, hsv]⟩⟩
      · exact absurd hx (g3 x)

/-- C35, repaired program: for every history of proper calls, `size` is the number of unknowns introduced, `consistent`
answers whether the equations have a solution; if so `a_solution` is a solution, `rank` and `dimension` add up to the number
of unknowns, `solution_basis` is a basis of the solutions to the homogeneous equations, of `dimension` elements, and leaves
the set of solutions described by the system unchanged -/
theorem C35_repaired_solves (nd : Bool) (ops : List SysOp) (hv : Valid ops) : ∃ s, Sys.run nd true ops .empty = .ok s ∧ s.size = unknowns ops ∧
    (s.consistent = true ↔ ∃ x, Solves ops x) ∧
    (s.consistent = true → ∃ b g s', s.aSolution nd = .ok b ∧ b < 2 ^ unknowns ops ∧ Solves ops (vec b) ∧
      s.solutionBasis nd = .ok (g, s') ∧ IsHomBasis ops g ∧ s.dimension = some g.length ∧
      (∃ k, s.rank = some k ∧ k + g.length = unknowns ops) ∧
      ∃ b', s'.aSolution nd = .ok b' ∧ Solves ops (vec b')) ∧
    (s.consistent = false → s.rank = none ∧ s.dimension = none) := by
  obtain ⟨s, h1, h2⟩ := repaired_run nd ops hv
  refine ⟨s, h1, ?_, ?_, ?_, fun h => by simp [Sys.rank, Sys.dimension, h]⟩
  · rcases h2 with ⟨t, g1, g2⟩ | ⟨g1, _⟩
    · exact g1.plen
    · exact g1
  · rcases h2 with ⟨t, g1, g2⟩ | ⟨g1, g2, g3⟩
    · obtain ⟨b, _, _, hb⟩ := g1.aSolution nd
      exact ⟨fun _ => ⟨vec b, (g2 _).1 hb⟩, fun _ => g1.consistent⟩
    · rw [g2]
      exact ⟨fun h => absurd h (by simp), fun ⟨x, hx⟩ => absurd hx (g3 x)⟩
  · intro hcon
    rcases h2 with ⟨t, g1, g2⟩ | ⟨_, g2, _⟩
    · obtain ⟨b, a1, a2, a3⟩ := g1.aSolution nd
      obtain ⟨g, s', t', k1, k2, k3, k4, k5, k6, k7⟩ := g1.solutionBasis nd
      obtain ⟨b', c1, _, c3⟩ := k2.aSolution nd
      have hlen : t.length ≤ unknowns ops := by
        obtain ⟨_, t'', _, q2, q3, q4, _⟩ := g1.reduce nd
        have h1 := q3.length_le
        have h2 : (prs t'').length = (pivs t'').length := by rw [prs, pivs, List.length_map, List.length_map]
        rw [h2, q4, pivs, List.length_map] at h1
        exact h1
      refine ⟨b, g, s', a1, a2, (g2 _).1 a3, k1, ⟨k5, k6, fun u => ?_⟩, ?_, ⟨t.length, ?_, by omega⟩, b', c1, (g2 _).1 ((k3 _).1 c3)⟩
      · rw [k7]
        refine and_congr_right fun _ => ?_
        have hsol := (g2 _).1 a3
        rw [← Solves_hom hsol, ← g2, ← k3]
        have hb' := (k3 _).2 a3
        unfold Sat at hb' ⊢
        refine forall₂_congr fun y hy => ?_
        rw [dotN_add_right, hb' y hy]
        exact add_eq_left.symm
      · rw [Sys.dimension, if_pos hcon, k4, Sys.size, g1.plen, g1.eqs, enc_length]
      · rw [Sys.rank, if_pos hcon, g1.eqs, enc_length]
    · rw [g2] at hcon; cases hcon

/-- `x₀+x₂=1`, `x₀+x₁=0`, a third unknown pair and a reduction -/
example : Valid [.extend 3, .add [0, 2] 1, .add [1, 0, 1] 0, .reduce, .extend 2, .add [4, 1] 3] := by
  intro pre op post e
  have hsol : ∃ x, Solves [.extend 3, .add [0, 2] 1, .add [1, 0, 1] 0] x := by
    refine ⟨fun i => if i = 2 then 1 else 0, fun l r hm => ?_⟩
    simp at hm
    rcases hm with ⟨rfl, rfl⟩ | ⟨rfl, rfl⟩ <;> decide
  match pre with
  | [] => injection e with e1 e2; subst e1; trivial
  | [a] => simp at e; obtain ⟨rfl, rfl, rfl⟩ := e; simp [Proper, unknowns]
  | [a, b] => simp at e; obtain ⟨rfl, rfl, rfl, rfl⟩ := e; simp [Proper, unknowns]
  | [a, b, c] => simp at e; obtain ⟨rfl, rfl, rfl, rfl, rfl⟩ := e; exact hsol
  | [a, b, c, d] => simp at e; obtain ⟨rfl, rfl, rfl, rfl, rfl, rfl⟩ := e; trivial
  | [a, b, c, d, f] => simp at e; obtain ⟨rfl, rfl, rfl, rfl, rfl, rfl, rfl⟩ := e; simp [Proper, unknowns]
  | a :: b :: c :: d :: f :: g :: pre => simp at e

/-- C35: whatever the state, the value returned by `add` is the answer `consistent` gives afterwards -/
theorem C35_add_returns (nd fix : Bool) (s : Sys) (l : List Nat) (r : Nat) {b : Bool} {s' : Sys} (h : s.add nd fix l r = .ok (b, s')) :
    b = s'.consistent := by
  unfold Sys.add at h
  by_cases hc : s.consistent = true
  · rw [if_neg (by simp [hc])] at h
    cases hb : bmOf nd s.size l 0 with
    | ok x =>
      rw [hb, Res.ok_bind] at h
      cases ha : addLoop nd s.size s.eqn x r with
      | ok z =>
        obtain ⟨x', r'⟩ := z
        rw [ha, Res.ok_bind] at h
        simp only at h
        by_cases c1 : x' = 0 ∧ r' % 2 = 0
        · rw [if_pos c1] at h
          injection h with h
          injection h with h1 h2
          subst h1 h2
          exact hc.symm
        · rw [if_neg c1] at h
          generalize (if fix = true then decide (x' = 0) else List.isEmpty []) = q at h
          cases q with
          | true =>
            rw [if_pos rfl] at h
            injection h with h
            injection h with h1 h2
            subst h1 h2
            simp [Sys.consistent]
          | false =>
            rw [if_neg (by simp)] at h
            cases hl : bmMembers s.size x' with
            | nil => rw [hl] at h; cases h
            | cons p m =>
              rw [hl] at h
              change (Vec.put s.pivot p _ >>= _) = _ at h
              cases hp : Vec.put s.pivot p (some s.eqn.length) with
              | ok pv =>
                rw [hp, Res.ok_bind] at h
                injection h with h
                injection h with h1 h2
                subst h1 h2
                simp [Sys.consistent]
              | _ => rw [hp] at h; cases h
      | _ => rw [ha] at h; cases h
    | _ => rw [hb] at h; cases h
  · rw [if_pos (by simp [hc])] at h
    injection h with h
    injection h with h1 h2
    subst h1 h2
    simpa using hc

example : Sys.add false false ⟨[], [none]⟩ [0] 1 = .ok (false, ⟨[⟨[], 1⟩], [none]⟩) := by decide

/-- C35: `extend` returns the number of the first new unknown, and adds as many as requested -/
theorem C35_extend (s : Sys) (n : Nat) : (s.extend n).1 = s.size ∧ (s.extend n).2.size = s.size + n := by
  simp [Sys.extend, Sys.size]

/-- C35 is false of the code: after adding `x₀ = 0` the system is reported to be inconsistent, and refuses to be solved -/
theorem C35_consistent_false : ∃ (ops : List SysOp) (s : Sys), Valid ops ∧ Sys.run true false ops .empty = .ok s ∧ (∃ x, Solves ops x) ∧
    s.consistent = false := by
  refine ⟨[.extend 1, .add [0] 0], ⟨[⟨[], 0⟩], [none]⟩, ?_, by decide, ⟨fun _ => 0, ?_⟩, by decide⟩
  · intro pre op post e
    match pre with
    | [] => injection e with e1 e2; subst e1; trivial
    | [a] => simp at e; obtain ⟨rfl, rfl, rfl⟩ := e; simp [Proper, unknowns]
    | a :: b :: pre => simp at e
  · intro l r hm
    simp at hm
    obtain ⟨rfl, rfl⟩ := hm
    decide

/-- C35, what holds of the code: for every history of proper calls without `reduce`, `size` is the number of unknowns
introduced, and the system is considered consistent exactly if all equations added were `0 = 0`.  In that case `a_solution`
and `solution_basis` are right.  (Missing: any system with an equation that says something.) -/
theorem C35_code_partial (nd : Bool) (ops : List SysOp) (hv : Valid ops) (hr : SysOp.reduce ∉ ops) : ∃ s, Sys.run nd false ops .empty = .ok s ∧
    s.size = unknowns ops ∧ (s.consistent = true ↔ ∀ (l : List Nat) (r : Nat), SysOp.add l r ∈ ops → l = [] ∧ r % 2 = 0) ∧
    (s.consistent = true → (∃ x, Solves ops x) ∧ ∃ b g s', s.aSolution nd = .ok b ∧ b < 2 ^ unknowns ops ∧ Solves ops (vec b) ∧
      s.solutionBasis nd = .ok (g, s') ∧ IsHomBasis ops g ∧ s.dimension = some g.length) := by
  have key : ∃ s, Sys.run nd false ops .empty = .ok s ∧
      ((Good s (unknowns ops) [] ∧ ∀ (l : List Nat) (r : Nat), SysOp.add l r ∈ ops → l = [] ∧ r % 2 = 0) ∨
        (s.pivot.length = unknowns ops ∧ s.consistent = false ∧ ¬ ∀ (l : List Nat) (r : Nat), SysOp.add l r ∈ ops → l = [] ∧ r % 2 = 0)) := by
    induction ops using List.reverseRecOn with
    | nil => exact ⟨.empty, rfl, Or.inl ⟨Good.empty, by simp⟩⟩
    | append_singleton ops op ih =>
      obtain ⟨s, h1, h2⟩ := ih hv.init.1 fun h => hr (List.mem_append_left _ h)
      have hp := hv.init.2
      rw [run_append, h1, Res.ok_bind, unknowns_append]
      cases op with
      | extend m =>
        have hun : unknowns [SysOp.extend m] = m := rfl
        refine ⟨_, rfl, ?_⟩
        rw [hun]
        rcases h2 with ⟨g1, g2⟩ | ⟨g1, g2, g3⟩
        · exact Or.inl ⟨g1.extend m, by simpa using g2⟩
        · exact Or.inr ⟨by simp [Sys.extend, g1], g2, by simpa using g3⟩
      | add l r =>
        have hun : unknowns [SysOp.add l r] = 0 := rfl
        rw [hun, Nat.add_zero]
        rcases h2 with ⟨g1, g2⟩ | ⟨g1, g2, g3⟩
        · obtain ⟨b, s', a1, a2⟩ := g1.add_code nd (l := l) hp r
          refine ⟨s', by rw [Sys.step, a1]; rfl, ?_⟩
          rcases a2 with ⟨k1, k2⟩ | ⟨k1, k2, k3⟩
          · refine Or.inl ⟨k1, fun l' r' hm => ?_⟩
            rcases List.mem_append.1 hm with hm | hm
            · exact g2 l' r' hm
            · have e := List.mem_singleton.1 hm
              injection e with e1 e2
              subst e1 e2
              exact k2
          · exact Or.inr ⟨k1, k2, fun h => k3 (h l r (List.mem_append_right _ List.mem_cons_self))⟩
        · refine ⟨s, ?_, Or.inr ⟨g1, g2, fun h => g3 fun l r hm => h l r (List.mem_append_left _ hm)⟩⟩
          rw [Sys.step, Sys.add, if_pos (by rw [g2]; rfl)]; rfl
      | reduce => exact absurd (List.mem_append_right _ List.mem_cons_self) hr
  obtain ⟨s, h1, h2⟩ := key
  refine ⟨s, h1, ?_, ?_, ?_⟩
  · rcases h2 with ⟨g1, _⟩ | ⟨g1, _⟩
    · exact g1.plen
    · exact g1
  · rcases h2 with ⟨g1, g2⟩ | ⟨_, g2, g3⟩
    · exact ⟨fun _ => g2, fun _ => g1.consistent⟩
    · rw [g2]; exact ⟨fun h => by (cases h), fun h => absurd h g3⟩
  · intro hcon
    rcases h2 with ⟨g1, g2⟩ | ⟨_, g2, _⟩
    · have hall : ∀ x, Solves ops x := by
        intro x l r hm
        obtain ⟨rfl, hr⟩ := g2 l r hm
        rw [cast_mod, hr]; rfl
      obtain ⟨b, a1, a2, a3⟩ := g1.aSolution nd
      obtain ⟨g, s', t', k1, k2, k3, k4, k5, k6, k7⟩ := g1.solutionBasis nd
      refine ⟨⟨0, hall 0⟩, b, g, s', a1, a2, hall _, k1, ⟨k5, k6, fun u => ?_⟩, ?_⟩
      · rw [k7]
        refine and_congr_right fun _ => ?_
        refine ⟨fun _ => (Solves_hom (hall 0) u).1 (hall _), fun _ y hy => ?_⟩
        have s1 := (k3 (0 + u)).2 (fun y hy => by cases hy) y hy
        have s2 := (k3 0).2 (fun y hy => by cases hy) y hy
        rw [dotN_add_right, s2] at s1
        exact add_eq_left.1 s1
      · rw [Sys.dimension, if_pos hcon, k4, Sys.size, g1.plen, g1.eqs, enc_length]
    · rw [g2] at hcon; cases hcon

/-- C35: the code never reports an unsolvable system to be consistent -/
theorem C35_unsolvable_partial (nd : Bool) (ops : List SysOp) (hv : Valid ops) (hr : SysOp.reduce ∉ ops) {s : Sys}
    (h : Sys.run nd false ops .empty = .ok s) (hn : ¬ ∃ x, Solves ops x) : s.consistent = false := by
  obtain ⟨s', h1, _, _, h4⟩ := C35_code_partial nd ops hv hr
  have e : s = s' := by
    rw [h1] at h
    injection h with h
    exact h.symm
  subst e
  cases hc : s.consistent with
  | false => rfl
  | true => exact absurd (h4 hc).1 hn

example : ∃ ops : List SysOp, SysOp.reduce ∉ ops ∧ ¬ ∃ x, Solves ops x := by
  refine ⟨[.extend 1, .add [0] 0, .add [0] 1], by simp, ?_⟩
  rintro ⟨x, hx⟩
  have h1 := hx [0] 0 (by simp)
  have h2 := hx [0] 1 (by simp)
  rw [h1] at h2
  exact absurd h2 (by decide)

end Verif.F2
