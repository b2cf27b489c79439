import Verif.Datum.OrbitCode
/-
The two functions `basic_orbit`, and lists of Weyl group elements.
-/
namespace Verif.Datum
open Verif Verif.Mat Verif.Root
open scoped Matrix
set_option linter.unusedSectionVars false

section
variable {r : Nat} {ι : Type} [Fintype ι] {a c : ι → Fin r → ℤ} {lab : ι → Nat} {P : Finset ℕ} {g : ι → ℕ} {ro co : ℕ → Fin r → ℤ}

theorem basic_of_core (nd : Bool) {A : Access} (hA : AccOK A a c lab) (h : Gen a c P g ro co) {J : ι → Prop} {stab : List Nat} {i : ι} (hstab : ∀ s, s ∈ stab ↔ ∃ j, J j ∧ lab j = s)
    {e : Fin r → ℤ} (he : ∀ j, J j → e ⬝ᵥ c j = 0) (hi : 0 < e ⬝ᵥ c i) {fuel : Nat} (hf : P.card < fuel) :
    ∃ L ws, basicCore nd A fuel (insertAsc (lab i) stab) (lab i) (List.ofFn e) = .ok L ∧ Chain a c lab e L ws ∧ Reps a c (fun j => J j ∨ j = i) e ws := by
  classical
  obtain ⟨P', hP', h'⟩ := h.sub fun j => J j ∨ j = i
  have hc := Finset.card_le_card hP'
  obtain ⟨L, ws, h1, h2, h3, h4⟩ := basicCore_ok (lab := fun k : {j // J j ∨ j = i} => lab k) (e := e) (i := ⟨i, .inr rfl⟩) nd h'.sys h'.ro h'.co
    ⟨fun k => hA.root k, fun k => hA.coroot k, fun k v => hA.reflect k v⟩ (fun k hk => by
      rcases k with ⟨k, hk' | hk'⟩
      · exact he k hk'
      · subst hk'; exact absurd rfl hk) hi (stab := insertAsc (lab i) stab) (fun s => by
      rw [mem_insertAsc, hstab]
      constructor
      · rintro (rfl | ⟨j, hj, rfl⟩)
        · exact ⟨⟨i, .inr rfl⟩, rfl⟩
        · exact ⟨⟨j, .inl hj⟩, rfl⟩
      · rintro ⟨⟨j, hj | rfl⟩, rfl⟩
        · exact .inr ⟨j, hj, rfl⟩
        · exact .inl rfl) (fuel := fuel) (by omega) (by omega)
  refine ⟨L, _, h1, h2.map, ?_, ?_, fun w hw => ?_⟩
  · intro w hw
    obtain ⟨w', -, rfl⟩ := List.mem_map.1 hw
    intro j hj
    obtain ⟨k, -, rfl⟩ := List.mem_map.1 hj
    exact k.2
  · rw [List.map_map]
    have e1 : ((fun w => act a c w e) ∘ fun w : List {j // J j ∨ j = i} => w.map Subtype.val) =
        fun w => act (fun k : {j // J j ∨ j = i} => a k) (fun k : {j // J j ∨ j = i} => c k) w e := funext fun w => (act_val w e).symm
    rw [e1]
    exact h3
  · obtain ⟨u, rfl⟩ := lift_list hw
    obtain ⟨w', h5, h6⟩ := h4 u
    rw [act_val, act_val] at h6
    exact ⟨_, List.mem_map_of_mem h5, h6⟩

theorem contains_false {J : ι → Prop} {stab : List Nat} {i : ι} (hlab : Function.Injective lab) (hstab : ∀ s, s ∈ stab ↔ ∃ j, J j ∧ lab j = s) (hi : ¬ J i) :
    (!stab.contains (lab i)) = true := by
  rw [Bool.not_eq_true', Bool.eq_false_iff, Ne, List.contains_iff_mem, hstab]
  rintro ⟨j, hj, e⟩
  exact hi (hlab e ▸ hj)

/-! ### the search of a vector in the kernel -/

theorem findColumn_ok (nd : Bool) {k : Nat} (K : Matrix (Fin r) (Fin k) ℤ) (x : Fin r → ℤ) : ∀ (m j : Nat), j + m = k → (∃ t : Fin k, j ≤ t.1 ∧ x ⬝ᵥ (fun i => K i t) ≠ 0) →
    ∃ y z : Fin r → ℤ, findColumn nd (enc K) (List.ofFn x) m j = .ok (List.ofFn y) ∧ 0 < x ⬝ᵥ y ∧ (∃ t : Fin k, z = fun i => K i t) ∧ (y = z ∨ y = -z) := by
  intro m
  induction m with
  | zero => rintro j hj ⟨t, h1, -⟩; have := t.2; omega
  | succ m ih =>
    rintro j hj ⟨t, h1, h2⟩
    have hlt : j < k := by omega
    rw [findColumn, show j = (⟨j, hlt⟩ : Fin k).1 from rfl, C45_column, Res.ok_bind, C45_dot, Res.ok_bind]
    by_cases h : x ⬝ᵥ (fun i => K i ⟨j, hlt⟩) ≠ 0
    · rw [if_pos h]
      by_cases h' : x ⬝ᵥ (fun i => K i ⟨j, hlt⟩) < 0
      · rw [if_pos h', C45_vecNeg]
        exact ⟨_, _, rfl, by rw [dotProduct_neg]; omega, ⟨_, rfl⟩, .inr rfl⟩
      · rw [if_neg h']
        exact ⟨_, _, rfl, by omega, ⟨_, rfl⟩, .inl rfl⟩
    · rw [if_neg h]
      refine ih (j + 1) (by omega) ⟨t, ?_, h2⟩
      rcases Nat.lt_or_ge j t.1 with h3 | h3
      · exact h3
      · have : t = ⟨j, hlt⟩ := Fin.ext (by show t.1 = j; omega)
        subst this
        exact absurd h2 h

theorem rows_ok (nd : Bool) {A : Access} {stab : List Nat} {f : Fin stab.length → Fin r → ℤ} (hf : ∀ k : Fin stab.length, A.coroot stab[k] = .ok (List.ofFn (f k))) :
    forUp (fun k M => do setRow nd M k (← A.coroot (← Vec.get stab k))) stab.length 0 (blank stab.length r) = .ok (enc (Matrix.of f)) := by
  rw [blank_tb, enc_tb]
  refine forUp_ok (fun t => tb stab.length r fun i j => if i < t then ex (Matrix.of f) i j else 0) ?_ ?_ ?_
  · exact tb_congr fun r c _ _ => by simp
  · exact tb_congr fun i j hi hj => by rw [if_pos (by omega)]
  · intro t _ ht
    rw [Nat.zero_add] at ht
    have h1 := hf ⟨t, ht⟩
    simp only [Fin.getElem_fin] at h1
    rw [Vec.get_ok ht, Res.ok_bind, h1, Res.ok_bind, ofFn_vk, setRow_tb nd _ ht]
    refine congrArg Res.ok (tb_congr fun i j hi hj => ?_)
    by_cases hit : i = t
    · subst hit
      rw [if_pos rfl, if_pos (by omega), ex_lt _ hi hj, exv, dif_pos hj]; rfl
    · rw [if_neg hit]
      by_cases h2 : i < t
      · rw [if_pos h2, if_pos (by omega)]
      · rw [if_neg h2, if_neg (by omega)]

/-- the function for a set of roots -/
theorem basicG_ok (nd dual : Bool) {rd : RD} (hr : rd.rank = r) (hr' : r < 2 ^ 64) (hA : AccOK (Access.all nd dual rd) a c lab) (h : Gen a c P g ro co) (hlab : Function.Injective lab)
    (hP : P.card ≤ rd.rs.numPos) : BasicOK a c lab (basicOrbitG nd dual rd) := by
  classical
  intro J stab i hstab hi
  choose f hf using fun k : Fin stab.length => (hstab stab[k]).1 (List.getElem_mem _)
  have hrows := rows_ok (r := r) nd (A := Access.all nd dual rd) (stab := stab) (f := fun k => c (f k)) fun k => by rw [← (hf k).2]; exact hA.coroot _
  obtain ⟨k, K, h1, h2⟩ := C46_kernel nd hr' (Matrix.of fun k => c (f k))
  obtain ⟨e0, h3, h4⟩ := h.sys.fundamental h.inj i
  rw [h.co] at h4
  have hker : ∀ e : Fin r → ℤ, (Matrix.of fun k => c (f k)) *ᵥ e = 0 ↔ ∀ j, J j → e ⬝ᵥ c j = 0 := fun e => by
    constructor
    · intro hh j hj
      obtain ⟨k, hk⟩ := List.mem_iff_get.1 ((hstab (lab j)).2 ⟨j, hj, rfl⟩)
      have h5 := congrFun hh k
      have h6 : f k = j := hlab (by rw [(hf k).2]; exact hk)
      simp only [Matrix.mulVec, Matrix.of_apply, Pi.zero_apply, h6] at h5
      rw [dotProduct_comm]; exact h5
    · intro hh
      funext k
      have := hh _ (hf k).1
      rw [dotProduct_comm] at this
      exact this
  have h5 : ∃ t : Fin k, c i ⬝ᵥ (fun j => K j t) ≠ 0 := by
    by_contra hh
    push Not at hh
    obtain ⟨x, hx⟩ := (h2.span e0).1 ((hker e0).2 fun j hj => by
      have := h3 j fun e => hi (e ▸ hj)
      rwa [h.co] at this)
    apply h4
    rw [← hx, dotProduct_comm, Matrix.dotProduct_mulVec]
    have : c i ᵥ* K = 0 := funext hh
    rw [this, zero_dotProduct]
  obtain ⟨t, ht⟩ := h5
  obtain ⟨y, z, h6, h7, ⟨t', h8⟩, h9⟩ := findColumn_ok nd K (c i) k 0 (by omega) ⟨t, by omega, ht⟩
  have hz : ∀ j, J j → z ⬝ᵥ c j = 0 := (hker z).1 ((h2.span z).2 ⟨Pi.single t' 1, by rw [h8]; funext j; simp [Matrix.mulVec_single]⟩)
  have hy : ∀ j, J j → y ⬝ᵥ c j = 0 := fun j hj => by
    rcases h9 with rfl | rfl
    · exact hz j hj
    · rw [neg_dotProduct, hz j hj, neg_zero]
  rw [dotProduct_comm] at h7
  obtain ⟨L, ws, h10, h11, h12⟩ := basic_of_core nd hA h hstab hy h7 (fuel := rd.rs.numPos + 2) (by omega)
  refine ⟨L, ws, y, ?_, h11, h12, hy, h7⟩
  rw [basicOrbitG, Res.assertIn_bind nd (contains_false hlab hstab hi)]
  simp only []
  rw [hr, hrows, Res.ok_bind, h1, Res.ok_bind, hA.coroot, Res.ok_bind, show (enc K).cols = k from rfl, h6, Res.ok_bind, h10, Res.ok_bind]

end

/-! ### simple generators -/

section
variable {n r : Nat} {α αv : Fin n → Fin r → ℤ} {nd pc : Bool} {comps : List Weyl.Comp} {N : Nat} {R R' : Nat → Fin n → ℤ} {rd : RD}
  (H : Holds nd α αv comps pc N R R' rd)
include H

theorem simple_gen : Gen α αv ((Finset.range N).map (addLeftEmbedding N)) (fun i : Fin n => N + i.1) (fun k => lin α (R k)) (fun k => lin αv (R' k)) :=
  ⟨full_sys H.sys, fun i j e => Fin.ext (by simpa using e), fun i => (simple_lin H.sys i).1, fun i => (simple_lin H.sys i).2⟩

theorem simple_acc : AccOK (Access.simple nd false rd) α αv Fin.val ∧ AccOK (Access.simple nd true rd) αv α Fin.val :=
  ⟨⟨simpleRoot_ok H, simpleCoroot_ok H, fun i v => by
    have := simpleReflect_ok H v 0 i
    rw [add_zero] at this
    exact this⟩, simpleCoroot_ok H, simpleRoot_ok H, fun i v => by
    have := simpleCoreflect_ok H v 0 i
    rw [add_zero] at this
    exact this⟩

theorem all_acc {m : Nat} {G : Fin m → Nat} (hG : ∀ i, G i < 2 * N) :
    AccOK (Access.all nd false rd) (fun i => lin α (R (G i))) (fun i => lin αv (R' (G i))) G ∧ AccOK (Access.all nd true rd) (fun i => lin αv (R' (G i))) (fun i => lin α (R (G i))) G :=
  ⟨⟨fun i => root_ok H (hG i), fun i => coroot_ok H (hG i), fun i v => by
    have := reflect_ok H v 0 (hG i)
    rw [add_zero] at this
    exact this⟩, fun i => coroot_ok H (hG i), fun i => root_ok H (hG i), fun i v => by
    have := coreflect_ok H v 0 (hG i)
    rw [add_zero] at this
    exact this⟩

theorem basic_ok : BasicOK α αv Fin.val (Datum.basicOrbit nd false rd) ∧ BasicOK αv α Fin.val (Datum.basicOrbit nd true rd) := by
  have hcard : ((Finset.range N).map (addLeftEmbedding N)).card < rd.rs.numPos + 2 := by
    rw [Finset.card_map, Finset.card_range, H.sys.answers.numPos]; omega
  constructor
  · intro J stab i hstab hi
    obtain ⟨x, d, h1, h2, h3⟩ := H.isDatum.fundamentalWeight i
    have he : ∀ j, J j → lin α x ⬝ᵥ αv j = 0 := fun j hj => by rw [h3, if_neg (show ¬ j = i from fun e => hi (e ▸ hj))]
    have hi' : 0 < lin α x ⬝ᵥ αv i := by rw [h3, if_pos rfl]; exact h2
    obtain ⟨L, ws, h4, h5, h6⟩ := basic_of_core nd (simple_acc H).1 (simple_gen H) hstab he hi' hcard
    refine ⟨L, ws, _, ?_, h5, h6, he, hi'⟩
    rw [Datum.basicOrbit, Res.assertIn_bind nd (contains_false Fin.val_injective hstab hi), if_neg (by simp), h1, Res.ok_bind]
    simp only []
    rw [h4, Res.ok_bind]
  · intro J stab i hstab hi
    obtain ⟨x, d, h1, h2, h3⟩ := H.isDatum.fundamentalCoweight i
    have he : ∀ j, J j → lin αv x ⬝ᵥ α j = 0 := fun j hj => by rw [h3, if_neg (show ¬ j = i from fun e => hi (e ▸ hj))]
    have hi' : 0 < lin αv x ⬝ᵥ α i := by rw [h3, if_pos rfl]; exact h2
    obtain ⟨L, ws, h4, h5, h6⟩ := basic_of_core nd (simple_acc H).2 (simple_gen H).swap hstab he hi' hcard
    refine ⟨L, ws, _, ?_, h5, h6, he, hi'⟩
    rw [Datum.basicOrbit, Res.assertIn_bind nd (contains_false Fin.val_injective hstab hi), if_pos rfl, h1, Res.ok_bind]
    simp only []
    rw [h4, Res.ok_bind]

end

end Verif.Datum
