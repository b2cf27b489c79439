import Verif.F2.Mod2Model
import Verif.F2.SubLemmas
/-
C35: lemmas on `Mod2_System`.
-/
namespace Verif.F2
open Verif

theorem bmInsert_ok (nd : Bool) {n i : Nat} (x : Nat) (hi : i < n) : bmInsert nd n x i = .ok (x ||| 1 <<< i) := by
  unfold bmInsert
  rw [Res.assertIn_bind nd (by simpa using hi), if_pos hi]

theorem bmFlip_ok (nd : Bool) {n i : Nat} (x : Nat) (hi : i < n) : bmFlip nd n x i = .ok (x ^^^ 1 <<< i) := by
  unfold bmFlip
  rw [Res.assertIn_bind nd (by simpa using hi), if_pos hi]

theorem bmSet_ok (nd : Bool) {n i : Nat} (x v : Nat) (hi : i < n) : bmSet nd n x i v = .ok (putBit x i (v % 2 ≠ 0)) := by
  unfold bmSet
  rw [Res.assertIn_bind nd (by simpa using hi), if_pos hi]

theorem testBit_one_shift (i j : Nat) : (1 <<< i).testBit j = decide (i = j) := by
  rw [Nat.shiftLeft_eq, Nat.one_mul, Nat.testBit_two_pow]

theorem mem_bmMembers {n x i : Nat} (hx : x < 2 ^ n) : i ∈ bmMembers n x ↔ x.testBit i = true := by
  unfold bmMembers
  rw [List.mem_filter, List.mem_range]
  exact ⟨fun h => h.2, fun h => ⟨testBit_lt hx h, h⟩⟩

theorem bmMembers_sorted (n x : Nat) : (bmMembers n x).Pairwise (· < ·) := List.Pairwise.filter _ List.pairwise_lt_range

theorem bmMembers_nodup (n x : Nat) : (bmMembers n x).Nodup := (bmMembers_sorted n x).imp fun h => Nat.ne_of_lt h

theorem bmMembers_lt {n x : Nat} : ∀ i ∈ bmMembers n x, i < n := by
  intro i hi
  unfold bmMembers at hi
  rw [List.mem_filter, List.mem_range] at hi
  exact hi.1

theorem bmMembers_extend {n m x : Nat} (hx : x < 2 ^ n) : bmMembers (n + m) x = bmMembers n x := by
  unfold bmMembers
  rw [List.range_add, List.filter_append]
  have : List.filter (fun i => x.testBit i) ((List.range m).map (n + ·)) = [] := by
    rw [List.filter_eq_nil_iff]
    intro i hi
    obtain ⟨j, _, rfl⟩ := List.mem_map.1 hi
    intro h
    have := testBit_lt hx h
    omega
  rw [this, List.append_nil]

theorem bmMembers_head {n x p : Nat} (hx : x < 2 ^ n) (hp : Lead x p) : ∃ l, bmMembers n x = p :: l ∧ p ∉ l ∧
    ∀ i, i ∈ l ↔ x.testBit i = true ∧ i ≠ p := by
  have hm : p ∈ bmMembers n x := (mem_bmMembers hx).2 hp.1
  have hs := bmMembers_sorted n x
  have hmem : ∀ i, i ∈ bmMembers n x ↔ x.testBit i = true := fun i => mem_bmMembers hx
  revert hm hs hmem
  generalize bmMembers n x = L
  intro hm hs hmem
  cases L with
  | nil => cases hm
  | cons q l =>
    have hc := List.pairwise_cons.1 hs
    have hq : q = p := by
      rcases List.mem_cons.1 hm with h | h
      · exact h.symm
      · have h1 := hc.1 p h
        have h2 := (hmem q).1 List.mem_cons_self
        rw [hp.2 q h1] at h2; cases h2
    subst hq
    have hnot : q ∉ l := fun h => Nat.lt_irrefl _ (hc.1 q h)
    refine ⟨l, rfl, hnot, fun i => ?_⟩
    rw [← hmem, List.mem_cons]
    constructor
    · intro h
      exact ⟨Or.inr h, fun e => hnot (e ▸ h)⟩
    · rintro ⟨h | h, hne⟩
      · exact absurd h hne
      · exact h

theorem flipAll_spec (nd : Bool) {n : Nat} : ∀ (L : List Nat), (∀ i ∈ L, i < n) → L.Nodup → ∀ x, ∃ r, flipAll nd n L x = .ok r ∧
    ∀ i, r.testBit i = (x.testBit i ^^ decide (i ∈ L)) := by
  intro L
  induction L with
  | nil => intro _ _ x; exact ⟨x, rfl, by simp⟩
  | cons j L ih =>
    intro hL hnd x
    have hc := List.nodup_cons.1 hnd
    rw [flipAll, bmFlip_ok nd x (hL j List.mem_cons_self), Res.ok_bind]
    obtain ⟨r, h1, h2⟩ := ih (fun i hi => hL i (List.mem_cons_of_mem _ hi)) hc.2 (x ^^^ 1 <<< j)
    refine ⟨r, h1, fun i => ?_⟩
    rw [h2, Nat.testBit_xor, testBit_one_shift]
    by_cases hij : j = i
    · subst hij; simp [hc.1]
    · have : i ≠ j := fun e => hij e.symm
      simp [hij, this]

theorem flipAll_members (nd : Bool) {n y : Nat} (hy : y < 2 ^ n) (x : Nat) : flipAll nd n (bmMembers n y) x = .ok (x ^^^ y) := by
  obtain ⟨r, h1, h2⟩ := flipAll_spec nd (bmMembers n y) bmMembers_lt (bmMembers_nodup n y) x
  rw [h1]
  congr 1
  apply Nat.eq_of_testBit_eq
  intro i
  rw [h2, Nat.testBit_xor]
  congr 1
  rw [Bool.eq_iff_iff, decide_eq_true_iff, mem_bmMembers hy]

theorem bmOf_spec (nd : Bool) {n : Nat} : ∀ (L : List Nat), (∀ i ∈ L, i < n) → ∀ x, ∃ r, bmOf nd n L x = .ok r ∧
    ∀ i, r.testBit i = (x.testBit i || decide (i ∈ L)) := by
  intro L
  induction L with
  | nil => intro _ x; exact ⟨x, rfl, by simp⟩
  | cons j L ih =>
    intro hL x
    rw [bmOf, bmInsert_ok nd x (hL j List.mem_cons_self), Res.ok_bind]
    obtain ⟨r, h1, h2⟩ := ih (fun i hi => hL i (List.mem_cons_of_mem _ hi)) (x ||| 1 <<< j)
    refine ⟨r, h1, fun i => ?_⟩
    rw [h2, Nat.testBit_or, testBit_one_shift]
    by_cases hij : j = i
    · subst hij; simp
    · have : i ≠ j := fun e => hij e.symm
      simp [hij, this]

theorem bmOf_members (nd : Bool) {n y : Nat} (hy : y < 2 ^ n) : bmOf nd n (bmMembers n y) 0 = .ok y := by
  obtain ⟨r, h1, h2⟩ := bmOf_spec nd (bmMembers n y) bmMembers_lt 0
  rw [h1]
  congr 1
  apply Nat.eq_of_testBit_eq
  intro i
  rw [h2, Nat.zero_testBit, Bool.false_or, Bool.eq_iff_iff, decide_eq_true_iff, mem_bmMembers hy]

theorem dotN_members {n x : Nat} (u : Nat → ZMod 2) : dotN n (vec x) u = ((bmMembers n x).map u).sum := by
  unfold dotN bmMembers
  induction n with
  | zero => rfl
  | succ n ih =>
    rw [Finset.sum_range_succ, ih, List.range_succ, List.filter_append, List.map_append, List.sum_append]
    congr 1
    by_cases h : x.testBit n = true
    · rw [List.filter_cons_of_pos (by simpa using h), vec_eq_one.2 h, one_mul]; simp
    · rw [List.filter_cons_of_neg h, vec_eq_zero.2 (by simpa using h), zero_mul]; rfl

theorem countIn_spec {n b : Nat} (l : List Nat) (hl : ∀ i ∈ l, i < n) : ((countIn n b l : Nat) : ZMod 2) = (l.map (vec b)).sum := by
  unfold countIn
  induction l with
  | nil => rfl
  | cons i l ih =>
    have := ih fun j hj => hl j (List.mem_cons_of_mem _ hj)
    rw [List.map_cons, List.sum_cons, ← this]
    have hi := hl i List.mem_cons_self
    by_cases h : b.testBit i = true
    · rw [List.filter_cons_of_pos (by simp [bmMember, hi, h]), List.length_cons, Nat.cast_add, vec_eq_one.2 h, add_comm]; rfl
    · rw [List.filter_cons_of_neg (by simp [bmMember, h]), vec_eq_zero.2 (by simpa using h), zero_add]

/-! ### Systems in echelon form -/

/-- the equations described by `t` -/
def enc (n : Nat) (t : Eqs) : List Eqn := t.map fun y => ⟨bmMembers n y.1.1, y.2.toNat⟩

theorem enc_cons (n : Nat) (y : (Nat × Nat) × Bool) (t : Eqs) : enc n (y :: t) = ⟨bmMembers n y.1.1, y.2.toNat⟩ :: enc n t := rfl

theorem get_head (n : Nat) {x p : Nat} (hx : x < 2 ^ n) (hp : Lead x p) : Vec.get (bmMembers n x) 0 = .ok p := by
  obtain ⟨l, h1, _⟩ := bmMembers_head hx hp
  rw [h1]; rfl

theorem eliminate_spec (nd : Bool) {n x p : Nat} (hx : x < 2 ^ n) (hp : Lead x p) {r : Nat} {dst : Nat} (hd : dst.testBit p = true) :
    eliminate nd n ⟨bmMembers n x, r⟩ dst = .ok (r, dst ^^^ x) := by
  unfold eliminate
  simp only
  rw [get_head n hx hp, Res.ok_bind, Res.assertIn_bind nd (by simp [bmMember, hd, testBit_lt hx hp.1]), flipAll_members nd hx]
  rfl

theorem cast_mod (a : Nat) : ((a : Nat) : ZMod 2) = bz (a % 2 ≠ 0) := by
  have h : ((a : Nat) : ZMod 2) = ((a % 2 : Nat) : ZMod 2) := by
    exact (ZMod.natCast_mod a 2).symm
  rw [h]
  rcases Nat.mod_two_eq_zero_or_one a with h | h <;> rw [h] <;> rfl

theorem addLoop_spec (nd : Bool) {n : Nat} : ∀ (t : Eqs), Tri n (prs t) → ∀ lhs rhs, lhs < 2 ^ n → ∃ lhs' rhs',
    addLoop nd n (enc n t) lhs rhs = .ok (lhs', rhs') ∧ lhs' < 2 ^ n ∧ (∀ y ∈ t, lhs'.testBit y.1.2 = false) ∧
      (∀ p, (∀ y ∈ t, y.1.1.testBit p = false) → lhs'.testBit p = lhs.testBit p) ∧
      ∀ c, Sat n t c → dotN n (vec lhs') c + (rhs' : ZMod 2) = dotN n (vec lhs) c + (rhs : ZMod 2) := by
  intro t
  induction t with
  | nil => intro _ lhs rhs hl; exact ⟨lhs, rhs, rfl, hl, by simp, fun _ _ => rfl, fun _ _ => rfl⟩
  | cons y t ih =>
    intro hT lhs rhs hl
    have hpos : y.1.2 < n := hT.pos (x := y.1) List.mem_cons_self
    have hlt : y.1.1 < 2 ^ n := hT.lt y.1 List.mem_cons_self
    have hld := hT.lead y.1 List.mem_cons_self
    have htri : ∀ z ∈ t, z.1.1.testBit y.1.2 = false := fun z hz => (List.pairwise_cons.1 hT.tri).1 z.1 (List.mem_map_of_mem hz)
    rw [enc_cons, addLoop]
    simp only
    rw [get_head n hlt hld, Res.ok_bind]
    by_cases hb : lhs.testBit y.1.2 = true
    · rw [if_pos (by simp [bmMember, hpos, hb]), eliminate_spec nd hlt hld hb, Res.ok_bind]
      obtain ⟨lhs', rhs', h1, h2, h3, h4, h5⟩ := ih hT.tail (lhs ^^^ y.1.1) (rhs + y.2.toNat) (xor_lt hl hlt)
      refine ⟨lhs', rhs', h1, h2, ?_, ?_, ?_⟩
      · intro z hz
        rcases List.mem_cons.1 hz with rfl | hz
        · rw [h4 _ htri, Nat.testBit_xor, hb, hld.1]; rfl
        · exact h3 z hz
      · intro p hp
        rw [h4 p (fun z hz => hp z (List.mem_cons_of_mem _ hz)), Nat.testBit_xor, hp y List.mem_cons_self, Bool.xor_false]
      · intro c hc
        rw [h5 c fun z hz => hc z (List.mem_cons_of_mem _ hz), vec_xor, dotN_add_left, hc y List.mem_cons_self, Nat.cast_add]
        have h2 : bz y.2 + (y.2.toNat : ZMod 2) = 0 := by cases y.2 <;> decide
        rw [add_add_add_comm, h2, add_zero]
    · rw [if_neg (by simp [bmMember, hb])]
      obtain ⟨lhs', rhs', h1, h2, h3, h4, h5⟩ := ih hT.tail lhs rhs hl
      refine ⟨lhs', rhs', h1, h2, ?_, ?_, fun c hc => h5 c fun z hz => hc z (List.mem_cons_of_mem _ hz)⟩
      · intro z hz
        rcases List.mem_cons.1 hz with rfl | hz
        · rw [h4 _ htri]; simpa using hb
        · exact h3 z hz
      · intro p hp
        exact h4 p (fun z hz => hp z (List.mem_cons_of_mem _ hz))

theorem dotN_congr {n : Nat} {u v w : Nat → ZMod 2} (h : ∀ i < n, u i ≠ 0 → v i = w i) : dotN n u v = dotN n u w := by
  unfold dotN
  apply Finset.sum_congr rfl
  intro i hi
  by_cases h0 : u i = 0
  · rw [h0, zero_mul, zero_mul]
  · rw [h i (Finset.mem_range.1 hi) h0]

theorem solveLoop_spec (nd : Bool) {n : Nat} : ∀ (t : Eqs), Tri n (prs t) → ∃ b, solveLoop nd n (enc n t) = .ok b ∧ b < 2 ^ n ∧
    Sat n t (vec b) := by
  intro t
  induction t with
  | nil => intro _; exact ⟨0, rfl, Nat.pow_pos (by omega), by intro y hy; cases hy⟩
  | cons y t ih =>
    intro hT
    have hpos : y.1.2 < n := hT.pos (x := y.1) List.mem_cons_self
    have hlt : y.1.1 < 2 ^ n := hT.lt y.1 List.mem_cons_self
    have hld := hT.lead y.1 List.mem_cons_self
    have htri : ∀ z ∈ t, z.1.1.testBit y.1.2 = false := fun z hz => (List.pairwise_cons.1 hT.tri).1 z.1 (List.mem_map_of_mem hz)
    obtain ⟨b, h1, h2, h3⟩ := ih hT.tail
    obtain ⟨l, g1, g2, g3⟩ := bmMembers_head hlt hld
    rw [enc_cons, solveLoop, h1, Res.ok_bind]
    simp only
    rw [get_head n hlt hld, Res.ok_bind, bmSet_ok nd _ _ hpos]
    refine ⟨_, rfl, putBit_lt h2 hpos, ?_⟩
    intro z hz
    have hoff : ∀ (v : Bool) (i : Nat), i ≠ y.1.2 → vec (putBit b y.1.2 v) i = vec b i := by
      intro v i hi
      rw [vec_bz, vec_bz, testBit_putBit, if_neg hi]
    rcases List.mem_cons.1 hz with rfl | hz
    · have hl : ∀ i ∈ l, i < n := fun i hi => bmMembers_lt i (by rw [g1]; exact List.mem_cons_of_mem _ hi)
      rw [dotN_members, g1, List.map_cons, List.sum_cons, vec_bz, testBit_putBit, if_pos rfl, List.tail_cons]
      have hmap : l.map (vec (putBit b z.1.2 (((if z.2.toNat ≠ 0 then 1 else 0) + countIn n b l) % 2 ≠ 0))) = l.map (vec b) := by
        apply List.map_congr_left
        intro i hi
        exact hoff _ i ((g3 i).1 hi).2
      rw [hmap, ← cast_mod, Nat.cast_add, countIn_spec l hl, add_assoc]
      have h2 : ∀ a : ZMod 2, a + a = 0 := by decide
      rw [h2, add_zero]
      cases z.2 <;> rfl
    · rw [← h3 z hz]
      apply dotN_congr
      intro i _ hi
      apply hoff
      rintro rfl
      exact hi (vec_eq_zero.2 (htri z hz))

/-! ### `reduce` -/

theorem toNat_xor (a b : Bool) : a.toNat ^^^ b.toNat = (a ^^ b).toNat := by cases a <;> cases b <;> rfl

theorem clearRow_spec (nd : Bool) {n inx : Nat} {pivot : List (Option Nat)} {t : Eqs} (hR : Red n (prs t))
    (hpiv : ∀ (k : Nat) (y : (Nat × Nat) × Bool), t[k]? = some y → pivot[y.1.2]? = some (some (inx + 1 + k))) :
    ∀ (ps : List Nat), (∀ p ∈ ps, p ∈ pivs t) → ps.Nodup → ∀ (row : Nat) (rhs : Bool), row < 2 ^ n → (∀ p ∈ ps, row.testBit p = true) →
      ∃ row' rhs', clearRow nd n inx pivot (enc n t) ps row rhs.toNat = .ok (row', rhs'.toNat) ∧ row' < 2 ^ n ∧
        (∀ p ∈ ps, row'.testBit p = false) ∧ (∀ p ∈ pivs t, p ∉ ps → row'.testBit p = row.testBit p) ∧
        (∀ q, (∀ y ∈ t, y.1.1.testBit q = false) → row'.testBit q = row.testBit q) ∧
        (∀ q, (∀ p ∈ ps, q < p) → row'.testBit q = row.testBit q) ∧
        ∀ c, Sat n t c → dotN n (vec row') c + bz rhs' = dotN n (vec row) c + bz rhs := by
  intro ps
  induction ps with
  | nil => intro _ _ row rhs hr _; exact ⟨row, rhs, rfl, hr, by simp, fun _ _ _ => rfl, fun _ _ => rfl, fun _ _ => rfl, fun _ _ => rfl⟩
  | cons p ps ih =>
    intro hps hnd row rhs hr hin
    have hc := List.nodup_cons.1 hnd
    obtain ⟨y, hy, rfl⟩ := List.mem_map.1 (hps _ List.mem_cons_self)
    obtain ⟨k, hk⟩ := List.mem_iff_getElem?.1 hy
    have hym : y.1 ∈ prs t := List.mem_map_of_mem hy
    have hlt := hR.lt y.1 hym
    have hld := hR.lead y.1 hym
    have hk' : Vec.get (enc n t) k = .ok ⟨bmMembers n y.1.1, y.2.toNat⟩ := by
      unfold Vec.get enc
      rw [List.getElem?_map, hk]; rfl
    have hg : Vec.get pivot y.1.2 = .ok (some (inx + 1 + k)) := by
      unfold Vec.get
      rw [hpiv k y hk]
    have hbit : ∀ q ∈ pivs t, y.1.1.testBit q = decide (y.1.2 = q) := by
      intro q hq
      obtain ⟨z, hz, rfl⟩ := List.mem_map.1 hq
      exact hR.bit hym (List.mem_map_of_mem (f := Prod.fst) hz)
    have hin' : ∀ q ∈ ps, (row ^^^ y.1.1).testBit q = true := by
      intro q hq
      have hne : y.1.2 ≠ q := fun e => hc.1 (e ▸ hq)
      rw [Nat.testBit_xor, hin q (List.mem_cons_of_mem _ hq), hbit q (hps q (List.mem_cons_of_mem _ hq))]
      simp [hne]
    obtain ⟨row', rhs', h1, h2, h3, h4, h5, h6, h7⟩ := ih (fun q hq => hps q (List.mem_cons_of_mem _ hq)) hc.2 (row ^^^ y.1.1) (rhs ^^ y.2)
      (xor_lt hr hlt) hin'
    refine ⟨row', rhs', ?_, h2, ?_, ?_, ?_, ?_, ?_⟩
    · rw [clearRow, hg, Res.ok_bind]
      simp only
      rw [Res.assertIn_bind nd (by simp; omega), if_pos (by omega), show inx + 1 + k - inx - 1 = k by omega, hk', Res.ok_bind,
        eliminate_spec nd hlt hld (hin _ List.mem_cons_self), Res.ok_bind]
      simp only
      rw [toNat_xor, h1]
    · intro q hq
      rcases List.mem_cons.1 hq with rfl | hq
      · rw [h4 _ (hps _ List.mem_cons_self) hc.1, Nat.testBit_xor, hin _ List.mem_cons_self, hld.1]; rfl
      · exact h3 q hq
    · intro q hq hqn
      rw [List.mem_cons, not_or] at hqn
      rw [h4 q hq hqn.2, Nat.testBit_xor, hbit q hq]
      simp [Ne.symm hqn.1]
    · intro q hq
      rw [h5 q hq, Nat.testBit_xor, hq y hy, Bool.xor_false]
    · intro q hq
      rw [h6 q (fun p hp => hq p (List.mem_cons_of_mem _ hp)), Nat.testBit_xor, hld.2 q (hq _ List.mem_cons_self), Bool.xor_false]
    · intro c hcS
      rw [h7 c hcS, vec_xor, dotN_add_left, hcS y hy, bz_xor]
      have h2 : bz y.2 + bz y.2 = 0 := by cases y.2 <;> decide
      rw [add_add_add_comm, h2, add_zero]

theorem reduceEqs_spec (nd : Bool) {n : Nat} {pivot : List (Option Nat)} : ∀ (t : Eqs) (inx : Nat), Tri n (prs t) →
    (∀ (k : Nat) (y : (Nat × Nat) × Bool), t[k]? = some y → pivot[y.1.2]? = some (some (inx + k))) →
    ∃ t' cols, reduceEqs nd n pivot inx (enc n t) = .ok (enc n t', cols) ∧ Red n (prs t') ∧ pivs t' = pivs t ∧ cols < 2 ^ n ∧
      (∀ p, cols.testBit p = true ↔ p ∈ pivs t) ∧ (∀ q, (∀ y ∈ t, y.1.1.testBit q = false) → ∀ y ∈ t', y.1.1.testBit q = false) ∧
      ∀ c, Sat n t' c ↔ Sat n t c := by
  intro t
  induction t with
  | nil => intro inx _ _; exact ⟨[], 0, rfl, ⟨by simp, by simp, List.Pairwise.nil⟩, rfl, Nat.pow_pos (by omega), by simp, by simp, fun _ => Iff.rfl⟩
  | cons y t ih =>
    intro inx hT hpiv
    have hpos : y.1.2 < n := hT.pos (x := y.1) List.mem_cons_self
    have hlt : y.1.1 < 2 ^ n := hT.lt y.1 List.mem_cons_self
    have hld := hT.lead y.1 List.mem_cons_self
    have htri : ∀ z ∈ t, z.1.1.testBit y.1.2 = false := fun z hz => (List.pairwise_cons.1 hT.tri).1 z.1 (List.mem_map_of_mem hz)
    obtain ⟨t', cols, h1, h2, h3, h4, h5, h6, h7⟩ := ih (inx + 1) hT.tail (fun k z hz => by
      have := hpiv (k + 1) z (by rw [List.getElem?_cons_succ]; exact hz)
      rw [this]; congr 2; omega)
    have hpiv' : ∀ (k : Nat) (z : (Nat × Nat) × Bool), t'[k]? = some z → pivot[z.1.2]? = some (some (inx + 1 + k)) := by
      intro k z hz
      have e : (pivs t)[k]? = some z.1.2 := by rw [← h3, List.getElem?_map, hz]; rfl
      rw [List.getElem?_map, Option.map_eq_some_iff] at e
      obtain ⟨w, hw, e⟩ := e
      have := hpiv (k + 1) w (by rw [List.getElem?_cons_succ]; exact hw)
      rw [e] at this
      rw [this]; congr 2; omega
    have htri' : ∀ z ∈ t', z.1.1.testBit y.1.2 = false := h6 _ htri
    obtain ⟨l, g1, g2, g3⟩ := bmMembers_head hlt hld
    have hcols : ∀ p, (cols ||| 1 <<< y.1.2).testBit p = true ↔ p ∈ pivs (y :: t) := by
      intro p
      rw [Nat.testBit_or, testBit_one_shift, Bool.or_eq_true, h5, decide_eq_true_iff, show pivs (y :: t) = y.1.2 :: pivs t from rfl, List.mem_cons]
      constructor
      · rintro (h | h)
        · exact Or.inr h
        · exact Or.inl h.symm
      · rintro (h | h)
        · exact Or.inr h.symm
        · exact Or.inl h
    have hcolslt : cols ||| 1 <<< y.1.2 < 2 ^ n := by
      apply Nat.or_lt_two_pow h4
      rw [Nat.shiftLeft_eq, Nat.one_mul]
      exact Nat.pow_lt_pow_right (by omega) hpos
    have hclear : ∀ p, p ∈ bmMembers n (y.1.1 &&& cols) ↔ y.1.1.testBit p = true ∧ p ∈ pivs t := by
      intro p
      rw [mem_bmMembers (lt_of_le_of_lt Nat.and_le_left hlt), Nat.testBit_and, Bool.and_eq_true, h5]
    -- the common end of both cases
    have fin : ∀ (row : Nat) (rhs : Bool), row < 2 ^ n → (∀ p ∈ pivs t, row.testBit p = false) → Lead row y.1.2 →
        (∀ q, y.1.1.testBit q = false → (∀ z ∈ t', z.1.1.testBit q = false) → row.testBit q = false) →
        (∀ c, Sat n t' c → dotN n (vec row) c + bz rhs = dotN n (vec y.1.1) c + bz y.2) →
        Red n (prs (((row, y.1.2), rhs) :: t')) ∧ pivs (((row, y.1.2), rhs) :: t') = pivs (y :: t) ∧
          (∀ q, (∀ z ∈ y :: t, z.1.1.testBit q = false) → ∀ z ∈ ((row, y.1.2), rhs) :: t', z.1.1.testBit q = false) ∧
          ∀ c, Sat n (((row, y.1.2), rhs) :: t') c ↔ Sat n (y :: t) c := by
      intro row rhs f1 f2 f3 f4 f5
      refine ⟨⟨?_, ?_, ?_⟩, ?_, ?_, ?_⟩
      · intro x hx
        rcases List.mem_cons.1 hx with rfl | hx
        · exact f1
        · exact h2.lt x hx
      · intro x hx
        rcases List.mem_cons.1 hx with rfl | hx
        · exact f3
        · exact h2.lead x hx
      · rw [prs, List.map_cons, List.pairwise_cons]
        refine ⟨?_, h2.red⟩
        intro x hx
        obtain ⟨z, hz, rfl⟩ := List.mem_map.1 hx
        exact ⟨htri' z hz, f2 _ (h3 ▸ List.mem_map_of_mem (f := fun z : (Nat × Nat) × Bool => z.1.2) hz)⟩
      · change y.1.2 :: pivs t' = y.1.2 :: pivs t
        rw [h3]
      · intro q hq z hz
        rcases List.mem_cons.1 hz with rfl | hz
        · exact f4 q (hq y List.mem_cons_self) (h6 q fun w hw => hq w (List.mem_cons_of_mem _ hw))
        · exact h6 q (fun w hw => hq w (List.mem_cons_of_mem _ hw)) z hz
      · intro c
        unfold Sat
        rw [List.forall_mem_cons, List.forall_mem_cons]
        have hcc : (∀ z ∈ t', dotN n (vec z.1.1) c = bz z.2) ↔ ∀ z ∈ t, dotN n (vec z.1.1) c = bz z.2 := h7 c
        rw [← hcc]
        have hadd : ∀ a b u v : ZMod 2, a + b = u + v → (a = b ↔ u = v) := by decide
        exact and_congr_left fun hs => hadd _ _ _ _ (f5 c hs)
    rw [enc_cons, reduceEqs, h1, Res.ok_bind]
    simp only
    rw [bmOf_members nd hlt, Res.ok_bind]
    rw [show bmMembers n y.1.1 = y.1.2 :: l from g1]
    simp only
    rw [bmInsert_ok nd cols hpos, Res.ok_bind]
    by_cases hcl : bmMembers n (y.1.1 &&& cols) = []
    · rw [if_pos hcl]
      have f2 : ∀ p ∈ pivs t, y.1.1.testBit p = false := by
        intro p hp
        cases hb : y.1.1.testBit p with
        | false => rfl
        | true =>
          have := (hclear p).2 ⟨hb, hp⟩
          rw [hcl] at this; cases this
      obtain ⟨k1, k2, k3, k4⟩ := fin y.1.1 y.2 hlt f2 hld (fun q hq _ => hq) (fun _ _ => rfl)
      refine ⟨y :: t', _, ?_, k1, k2, hcolslt, hcols, k3, k4⟩
      rw [enc_cons, g1]; rfl
    · rw [if_neg hcl]
      obtain ⟨row', rhs', r1, r2, r3, r4, r5, r6, r7⟩ := clearRow_spec nd h2 hpiv' (bmMembers n (y.1.1 &&& cols))
        (fun p hp => h3 ▸ ((hclear p).1 hp).2) (bmMembers_nodup _ _) y.1.1 y.2 hlt (fun p hp => ((hclear p).1 hp).1)
      rw [r1, Res.ok_bind]
      have hlow : ∀ q, q ≤ y.1.2 → row'.testBit q = y.1.1.testBit q := by
        intro q hq
        apply r6
        intro p hp
        have hp' := (hclear p).1 hp
        obtain ⟨z, hz, e⟩ := List.mem_map.1 hp'.2
        have hne : p ≠ y.1.2 := by
          rintro rfl
          have := hT.lead z.1 (List.mem_cons_of_mem _ (List.mem_map_of_mem (f := Prod.fst) hz))
          rw [e] at this
          exact absurd ((htri z hz).symm.trans this.1) (by simp)
        have hge : y.1.2 ≤ p := by
          by_contra hc
          rw [hld.2 p (by omega)] at hp'
          exact absurd hp'.1 (by simp)
        omega
      have f2 : ∀ p ∈ pivs t, row'.testBit p = false := by
        intro p hp
        by_cases hb : y.1.1.testBit p = true
        · exact r3 p ((hclear p).2 ⟨hb, hp⟩)
        · rw [r4 p (h3 ▸ hp) (fun h => hb ((hclear p).1 h).1)]; simpa using hb
      have f3 : Lead row' y.1.2 := ⟨by rw [hlow _ (Nat.le_refl _)]; exact hld.1, fun q hq => by rw [hlow q (by omega)]; exact hld.2 q hq⟩
      obtain ⟨k1, k2, k3, k4⟩ := fin row' rhs' r2 f2 f3 (fun q hq hz => by rw [r5 q hz]; exact hq) r7
      exact ⟨((row', y.1.2), rhs') :: t', _, rfl, k1, k2, hcolslt, hcols, k3, k4⟩

end Verif.F2
