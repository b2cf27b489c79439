import Verif.Ab.Lemmas
import Verif.BitMap.Props4
/-
Sets of elements of finite abelian groups.
-/
namespace Verif.Ab

open Finset
open Verif.Mat (forUp forUp_ok forUp_inv)
open Verif.BitMap (BitMap Rep Iter IsNext)

variable {r : Nat} {t : Fin r → Nat} [hz : ∀ i, NeZero (t i)]

theorem Reps.room {b : BitMap} {S : Set (G t)} (h : Reps b S) : ∏ i, t i + 64 ≤ 2 ^ 64 := by
  obtain ⟨F, h, -⟩ := h; exact h.room

theorem Reps.lt {b : BitMap} {S : Set (G t)} (h : Reps b S) : ∏ i, t i < 2 ^ 64 := by have := h.room; omega

/-- numbers of the elements of a set -/
theorem mem_of_rep {F : Finset Nat} {b : BitMap} (h : Rep b (∏ i, t i) F) {x : Nat} (hx : x ∈ F) : ∃ g : G t, nbr g = x :=
  ⟨ofNbr t x, nbr_ofNbr (h.sub x hx)⟩

theorem isMember_reps {b : BitMap} {S : Set (G t)} (h : Reps b S) (g : G t) [Decidable (g ∈ S)] :
    Verif.BitMap.isMember b (nbr g) = .ok (decide (g ∈ S)) := by
  obtain ⟨F, h1, h2⟩ := h
  rw [Verif.BitMap.C19_isMember h1]
  congr 1
  exact decide_eq_decide.2 (h2 g)

/-! ### cosets -/

theorem cosetLoop_spec (nd : Bool) (x : G t) : ∀ (l : List Nat) (c : BitMap) (F : Finset Nat), Rep c (∏ i, t i) F → (∀ y ∈ l, y < ∏ i, t i) →
    ∃ c', cosetLoop nd (grp t) (nbr x) l c = .ok c' ∧ Rep c' (∏ i, t i) (F ∪ (l.map fun y => nbr (ofNbr t y + x)).toFinset)
  | [], c, F, h, _ => ⟨c, rfl, by simpa using h⟩
  | y :: l, c, F, h, hl => by
    have hs : ∏ i, t i < 2 ^ 64 := by have := h.room; omega
    have e : add (grp t) y (nbr x) = .ok (nbr (ofNbr t y + x)) := by
      have := add_spec hs (ofNbr t y) x
      rwa [nbr_ofNbr (hl y (by simp))] at this
    obtain ⟨c1, h1, h2⟩ := Verif.BitMap.C19_insert nd h (nbr_lt (ofNbr t y + x))
    obtain ⟨c2, h3, h4⟩ := cosetLoop_spec nd x l c1 _ h2 fun z hz => hl z (by simp [hz])
    refine ⟨c2, by rw [cosetLoop, e, Res.ok_bind, h1, Res.ok_bind, h3], ?_⟩
    convert h4 using 1
    ext z
    simp [or_comm, or_left_comm]

theorem coset_spec (nd : Bool) {b c : BitMap} {S T : Set (G t)} (hb : Reps b S) (hc : Reps c T) (x : G t) :
    ∃ c', coset nd c b (nbr x) (grp t) = .ok c' ∧ Reps c' {g | ∃ h ∈ S, g = h + x} := by
  obtain ⟨F, h1, h2⟩ := hb
  obtain ⟨F', h3, -⟩ := hc
  obtain ⟨l, e, -, hl⟩ := Verif.BitMap.C19_elements h1
  obtain ⟨c', h4, h5⟩ := cosetLoop_spec nd x l _ _ (Verif.BitMap.C19_reset h3) fun y hy => h1.sub y ((hl y).1 hy)
  refine ⟨c', by rw [coset, e, Res.ok_bind, h4], _, h5, fun g => ?_⟩
  simp only [Finset.empty_union, List.mem_toFinset, List.mem_map, Set.mem_ofPred_eq]
  constructor
  · rintro ⟨y, hy, e⟩
    refine ⟨ofNbr t y, (h2 _).1 ?_, (nbr_inj e).symm⟩
    rw [nbr_ofNbr (h1.sub y ((hl y).1 hy))]
    exact (hl y).1 hy
  · rintro ⟨h, hh, rfl⟩
    exact ⟨nbr h, (hl _).2 ((h2 h).2 hh), by rw [ofNbr_nbr]⟩

/-! ### order modulo a subgroup -/

theorem orderLoop_spec {b : BitMap} {S : Set (G t)} (hb : Reps b S) (x : G t) (N : Nat) (hN : N • x ∈ S) (hmin : ∀ m, 0 < m → m < N → m • x ∉ S) :
    ∀ (k n : Nat), 0 < n → n ≤ N → N < n + k → 1 < N → orderLoop (grp t) b (arr x) k (n + 1) (arr (n • x)) = .ok N ∨ n = N
  | 0, n, _, h1, h2, _ => by omega
  | k + 1, n, h0, h1, h2, h3 => by
    classical
    rcases Nat.eq_or_lt_of_le h1 with c | c
    · right; exact c
    left
    rw [orderLoop, addArr_arr hb.lt, Res.ok_bind, toNbr_arr hb.lt.le, Res.ok_bind, isMember_reps hb, Res.ok_bind]
    have e : n • x + x = (n + 1) • x := (succ_nsmul x n).symm
    rw [e]
    by_cases c' : (n + 1) • x ∈ S
    · rw [if_pos (decide_eq_true c'), Res.pure_eq]
      congr 1
      by_contra hne
      exact hmin (n + 1) (by omega) (by omega) c'
    · rw [if_neg (by simpa using c')]
      rcases orderLoop_spec hb x N hN hmin k (n + 1) (by omega) (by omega) (by omega) h3 with h | h
      · exact h
      · rw [h] at c'; exact absurd hN c'

theorem orderMod_spec {b : BitMap} {S : Set (G t)} (hb : Reps b S) (x : G t) {N : Nat} (h0 : 0 < N) (hle : N ≤ ∏ i, t i) (hN : N • x ∈ S)
    (hmin : ∀ m, 0 < m → m < N → m • x ∉ S) : orderMod (grp t) b (nbr x) = .ok N := by
  classical
  rw [orderMod, isMember_reps hb, Res.ok_bind]
  by_cases c : x ∈ S
  · rw [if_pos (decide_eq_true c), Res.pure_eq]
    congr 1
    by_contra hne
    exact hmin 1 Nat.one_pos (by omega) (by rwa [one_smul])
  · rw [if_neg (by simpa using c), toArray_nbr, Res.ok_bind]
    have h1 : 1 < N := by
      rcases Nat.lt_or_ge 1 N with h | h
      · exact h
      · obtain rfl : N = 1 := by omega
        rw [one_smul] at hN; exact absurd hN c
    have := orderLoop_spec hb x N hN hmin (∏ i, t i) 1 Nat.one_pos h0 (by omega) h1
    rw [one_smul] at this
    rcases this with h | h
    · exact h
    · omega

/-! ### generated subgroups -/

theorem order_le_ann (hc : Chain t) (x : G t) : addOrderOf x ≤ ann t := by
  have := AddMonoid.addOrder_dvd_exponent x
  rw [ann_exponent hc] at this
  exact Nat.le_of_dvd ann_pos this

theorem le_ann (hc : Chain t) (i : Fin r) : t i ≤ ann t := Nat.le_of_dvd ann_pos (hc.dvd_ann i)

theorem small_mul (hc : Chain t) (h32 : ann t ≤ 2 ^ 32) {n : Nat} (x : G t) (hn : n ≤ addOrderOf x) (i : Fin r) : n * t i ≤ 2 ^ 64 := by
  have := Nat.mul_le_mul (hn.trans ((order_le_ann hc x).trans h32)) ((le_ann hc i).trans h32)
  calc _ ≤ _ := this
    _ = _ := by norm_num

theorem generate_spec (nd : Bool) (hc : Chain t) (h32 : ann t ≤ 2 ^ 32) {b : BitMap} {S : Set (G t)} (hb : Reps b S) (x : G t) :
    ∃ c, generateSubgroup nd b (nbr x) (grp t) = .ok c ∧ Reps c {g | ∃ h ∈ S, ∃ k : Nat, g = h + k • x} := by
  have key := forUp_inv (body := genStep nd (grp t) b (nbr x)) (fun i (s : BitMap × BitMap) =>
      Reps s.1 {g | ∃ h ∈ S, ∃ k < i, g = h + k • x} ∧ ∃ T : Set (G t), Reps s.2 T) (addOrderOf x - 1) 1 (b, Verif.BitMap.make (grp t).size) ?_ ?_
  · obtain ⟨s, e, h, -⟩ := key
    refine ⟨s.1, by rw [generateSubgroup, order_spec hb.lt, Res.ok_bind, e]; rfl, ?_⟩
    have hpos : 0 < addOrderOf x := addOrderOf_pos x
    rw [show 1 + (addOrderOf x - 1) = addOrderOf x by omega] at h
    convert h using 1
    ext g
    simp only [Set.mem_ofPred_eq]
    constructor
    · rintro ⟨y, hy, k, rfl⟩
      exact ⟨y, hy, k % addOrderOf x, Nat.mod_lt _ hpos, by rw [mod_addOrderOf_nsmul]⟩
    · rintro ⟨y, hy, k, -, rfl⟩
      exact ⟨y, hy, k, rfl⟩
  · refine ⟨?_, ∅, ∅, Verif.BitMap.C19_make hb.room, by simp⟩
    convert hb using 1
    ext g
    simp only [Set.mem_ofPred_eq]
    constructor
    · rintro ⟨y, hy, k, hk, rfl⟩
      obtain rfl : k = 0 := by omega
      simpa using hy
    · intro hg
      exact ⟨g, hg, 0, Nat.one_pos, by simp⟩
  · rintro i ⟨a, c⟩ h1 hi ⟨ha, T, hT⟩
    simp only at ha hT
    have hpos : 0 < addOrderOf x := addOrderOf_pos x
    rw [genStep, prod_spec hb.lt x i fun j => small_mul hc h32 x (by omega) j, Res.ok_bind]
    obtain ⟨c', e, hc'⟩ := coset_spec nd hb hT (i • x)
    simp only
    rw [e, Res.ok_bind]
    obtain ⟨F, f1, f2⟩ := ha
    obtain ⟨F', f3, f4⟩ := hc'
    obtain ⟨a', e', ha'⟩ := Verif.BitMap.C19_union nd f1 f3 le_rfl
    rw [e', Res.ok_bind]
    refine ⟨_, rfl, ⟨_, ha', fun g => ?_⟩, _, F', f3, f4⟩
    rw [Finset.mem_union, f2, f4]
    simp only [Set.mem_ofPred_eq]
    constructor
    · rintro (⟨y, hy, k, hk, rfl⟩ | ⟨y, hy, rfl⟩)
      · exact ⟨y, hy, k, by omega, rfl⟩
      · exact ⟨y, hy, i, by omega, rfl⟩
    · rintro ⟨y, hy, k, hk, rfl⟩
      rcases Nat.lt_succ_iff_lt_or_eq.1 hk with c | rfl
      · exact .inl ⟨y, hy, k, c, rfl⟩
      · exact .inr ⟨y, hy, rfl⟩

/-! ### choosing one element of each class -/

/-- a loop that visits the members of a set that shrinks meanwhile -/
def sieve (step : BitMap → Nat → Res BitMap) : Nat → BitMap → Iter → Res BitMap
  | 0, _, _ => .outOfFuel
  | k + 1, q, it =>
    if it.addr = it.cap then .ok q
    else do
      let q ← step q it.addr
      sieve step k q (← Verif.BitMap.next q it)

open Classical in
/-- members that have no smaller equivalent one below `m` -/
noncomputable def least (R : Nat → Nat → Prop) (c m : Nat) : Finset Nat := (range c).filter fun n => ∀ n' < m, R n' n → n ≤ n'

open Classical in
theorem sieve_spec {step : BitMap → Nat → Res BitMap} {R : Nat → Nat → Prop} {c : Nat}
    (symm : ∀ x y, R x y → R y x) (trans : ∀ x y z, R x y → R y z → R x z)
    (hstep : ∀ q F a, Rep q c F → a < c → ∃ q', step q a = .ok q' ∧ Rep q' c (F.filter fun n => R a n → n = a)) :
    ∀ (k m : Nat) (q : BitMap) (it : Iter), Rep q c (least R c m) → it.cap = c → m ≤ c → c + 1 ≤ m + k →
      (it.addr < c → it.chunk = it.addr / 64) → ((it.addr ∈ least R c m ∧ m ≤ it.addr ∧ ∀ n ∈ least R c m, m ≤ n → it.addr ≤ n) ∨
        (it.addr = c ∧ ∀ n ∈ least R c m, n < m)) →
      ∃ q', sieve step k q it = .ok q' ∧ Rep q' c (least R c c)
  | 0, m, q, it, _, _, _, h, _, _ => by omega
  | k + 1, m, q, it, hq, hcap, hm, hk, hch, hit => by
    rw [sieve, hcap]
    rcases hit with ⟨h1, h2, h3⟩ | ⟨h1, h2⟩
    · have ha : it.addr < c := by simpa using (mem_filter.1 h1).1
      rw [if_neg (by omega)]
      obtain ⟨q', e, hq'⟩ := hstep q _ it.addr hq ha
      have hL : ((least R c m).filter fun n => R it.addr n → n = it.addr) = least R c (it.addr + 1) := by
        ext n
        simp only [least, mem_filter, mem_range]
        constructor
        · rintro ⟨⟨hn, h⟩, h'⟩
          refine ⟨hn, fun n' hn' hR => ?_⟩
          rcases Nat.lt_or_ge n' m with d | d
          · exact h n' d hR
          rcases Nat.lt_succ_iff_lt_or_eq.1 hn' with d' | rfl
          · have : n' ∉ least R c m := fun hmem => by have := h3 n' hmem d; omega
            simp only [least, mem_filter, mem_range, not_and] at this
            have := this (by omega)
            push Not at this
            obtain ⟨n'', g1, g2, g3⟩ := this
            have := h n'' g1 (trans _ _ _ g2 hR)
            omega
          · rw [h' hR]
        · rintro ⟨hn, h⟩
          refine ⟨⟨hn, fun n' hn' => h n' (by omega)⟩, fun hR => ?_⟩
          have d := h it.addr (by omega) hR
          rcases Nat.eq_or_lt_of_le d with d | d
          · exact d
          · exfalso
            -- `n` is below the current member and has no smaller equivalent member
            have hn2 : n ∈ least R c m := mem_filter.2 ⟨mem_range.2 hn, fun n' hn' => h n' (by omega)⟩
            rcases Nat.lt_or_ge n m with d' | d'
            · have := (mem_filter.1 h1).2 n d' (symm _ _ hR)
              omega
            · have := h3 n hn2 d'; omega
      rw [hL] at hq'
      rw [e, Res.ok_bind]
      obtain ⟨it', e', k1, k2, k3⟩ := Verif.BitMap.C19_next hq' (hch ha) ha hcap
      rw [e', Res.ok_bind]
      refine sieve_spec symm trans hstep k (it.addr + 1) q' it' hq' k1 (by omega) (by omega) k3 ?_
      rcases k2 with ⟨k4, k5, k6⟩ | ⟨k4, k5⟩
      · exact .inl ⟨k4, k5, fun n hn hn' => k6 n hn hn'⟩
      · exact .inr ⟨k4, fun n hn => Nat.lt_succ_of_le (k5 n hn)⟩
    · rw [if_pos h1]
      refine ⟨q, rfl, ?_⟩
      have : least R c m = least R c c := by
        ext n
        simp only [least, mem_filter, mem_range]
        constructor
        · rintro ⟨hn, h⟩
          refine ⟨hn, fun n' hn' hR => ?_⟩
          have := h2 n (mem_filter.2 ⟨mem_range.2 hn, h⟩)
          rcases Nat.lt_or_ge n' m with d | d
          · exact h n' d hR
          · omega
        · rintro ⟨hn, h⟩
          exact ⟨hn, fun n' hn' => h n' (by omega)⟩
      rwa [← this]

theorem bind_assoc {α β γ : Type} (x : Res α) (f : α → Res β) (g : β → Res γ) : ((x >>= f) >>= g) = x >>= fun a => f a >>= g := by
  cases x <;> rfl

theorem quotLoop_eq (nd : Bool) (B : BitMap) (A : Grp) : ∀ k q it, quotLoop nd B A k q it = sieve (fun q a => do
    let c ← coset nd (Verif.BitMap.make A.size) B a A
    let c ← Verif.BitMap.remove nd c a
    Verif.BitMap.andnot nd q c) k q it
  | 0, _, _ => rfl
  | k + 1, q, it => by
    rw [quotLoop, sieve]
    split
    · rfl
    · simp only [Ab.bind_assoc, quotLoop_eq nd B A k]

theorem cycLoop_eq (nd : Bool) (A : Grp) : ∀ k q it, cycLoop nd A k q it = sieve (fun q a => do
    let n ← order A a
    forUp (cycInner nd A a n) (n - 2) 2 q) k q it
  | 0, _, _ => rfl
  | k + 1, q, it => by
    rw [cycLoop, sieve]
    split
    · rfl
    · simp only [Ab.bind_assoc, cycLoop_eq nd A k]

/-- smallest elements of the classes of an equivalence relation -/
def Smallest (R : G t → G t → Prop) : Set (G t) := {g | ∀ h, R h g → nbr g ≤ nbr h}

theorem least_reps {q : BitMap} (R : G t → G t → Prop) (h : Rep q (∏ i, t i) (least (fun a b => R (ofNbr t a) (ofNbr t b)) (∏ i, t i) (∏ i, t i))) :
    Reps q (Smallest R) := by
  refine ⟨_, h, fun g => ?_⟩
  simp only [least, mem_filter, mem_range, Smallest, Set.mem_ofPred_eq]
  constructor
  · rintro ⟨-, h⟩ x hx
    refine h _ (nbr_lt x) ?_
    rwa [ofNbr_nbr, ofNbr_nbr]
  · intro h
    refine ⟨nbr_lt g, fun n' hn' hR => ?_⟩
    rw [ofNbr_nbr] at hR
    have := h _ hR
    rwa [nbr_ofNbr hn'] at this

/-- sieving by an equivalence relation gives the smallest element of each class -/
theorem sieve_reps {step : BitMap → Nat → Res BitMap} (R : G t → G t → Prop) (hR : Equivalence R) 
    (hstep : ∀ (q : BitMap) (S : Set (G t)) (a : G t), Reps q S → ∃ q', step q (nbr a) = .ok q' ∧ Reps q' {g | g ∈ S ∧ (R a g → g = a)})
    (k m : Nat) (q : BitMap) (it : Iter) (hq : Rep q (∏ i, t i) (range (∏ i, t i))) (hcap : it.cap = ∏ i, t i)
    (hm : m ≤ 1) (hk : ∏ i, t i + 1 ≤ m + k) (hone : m = 1 → ∀ g : G t, R 0 g → g = 0) (ha : it.addr = m) (hch : it.addr < ∏ i, t i → it.chunk = it.addr / 64) :
    ∃ q', sieve step k q it = .ok q' ∧ Reps q' (Smallest R) := by
  classical
  have hpos := prod_pos (t := t)
  have hmp : m ≤ ∏ i, t i := by omega
  have hl : least (fun a b => R (ofNbr t a) (ofNbr t b)) (∏ i, t i) m = range (∏ i, t i) := by
    ext n
    simp only [least, mem_filter, mem_range]
    refine ⟨fun h => h.1, fun h => ⟨h, fun n' hn' hR' => ?_⟩⟩
    obtain rfl : n' = 0 := by omega
    have h0 : ofNbr t 0 = 0 := by
      funext i; simp [ofNbr]
    rw [h0] at hR'
    have := hone (by omega) _ hR'
    rw [← h0] at this
    have := congrArg nbr this
    rw [nbr_ofNbr h, nbr_ofNbr hpos] at this
    omega
  have key := sieve_spec (step := step) (R := fun a b => R (ofNbr t a) (ofNbr t b)) (c := ∏ i, t i)
    (fun x y h => hR.symm h) (fun x y z h h' => hR.trans h h') ?_ k m q it (by rw [hl]; exact hq) hcap hmp hk hch ?_
  · obtain ⟨q', e, hq'⟩ := key
    exact ⟨q', e, least_reps R hq'⟩
  · intro q F a hF ha
    obtain ⟨q', e, F', hF', hF2⟩ := hstep q {g | nbr g ∈ F} (ofNbr t a) ⟨F, hF, fun g => Iff.rfl⟩
    rw [nbr_ofNbr ha] at e
    refine ⟨q', e, ?_⟩
    convert hF' using 1
    ext n
    rw [mem_filter]
    constructor
    · rintro ⟨h1, h2⟩
      have hn := hF.sub n h1
      have := (hF2 (ofNbr t n)).2 ⟨by simpa [nbr_ofNbr hn] using h1, fun h => by rw [h2 h]⟩
      rwa [nbr_ofNbr hn] at this
    · intro h1
      have hn := hF'.sub n h1
      have := (hF2 (ofNbr t n)).1 (by rwa [nbr_ofNbr hn])
      refine ⟨by simpa [nbr_ofNbr hn] using this.1, fun h => ?_⟩
      have := congrArg nbr (this.2 h)
      rwa [nbr_ofNbr hn, nbr_ofNbr ha] at this
  · rw [hl]
    rcases Nat.eq_or_lt_of_le hmp with c | c
    · right
      exact ⟨by omega, fun n hn => by rw [mem_range] at hn; omega⟩
    · left
      exact ⟨by rw [mem_range]; omega, by omega, fun n _ h => by omega⟩

theorem full_front {q : BitMap} (hq : Rep q (∏ i, t i) (range (∏ i, t i))) : Verif.BitMap.front q = 0 := by
  have := (Verif.BitMap.C19_front hq).2 ⟨0, mem_range.2 prod_pos⟩
  have := this.2 0 (mem_range.2 prod_pos)
  omega

theorem quotReps_spec (nd : Bool) {b : BitMap} (H : AddSubgroup (G t)) (hb : Reps b (H : Set (G t))) :
    ∃ q, quotReps nd b (grp t) = .ok q ∧ Reps q (Smallest fun x y => y - x ∈ H) := by
  obtain ⟨q0, e0, h0⟩ := Verif.BitMap.C19_fillAll (Verif.BitMap.C19_make hb.room)
  have hR : Equivalence fun x y : G t => y - x ∈ H := by
    refine ⟨fun x => by simp, fun {x y} h => ?_, fun {x y z} h h' => ?_⟩
    · have := H.neg_mem h
      rwa [neg_sub] at this
    · have := H.add_mem h' h
      rwa [sub_add_sub_cancel] at this
  have key := sieve_reps (step := fun q a => do
      let c ← coset nd (Verif.BitMap.make (grp t).size) b a (grp t)
      let c ← Verif.BitMap.remove nd c a
      Verif.BitMap.andnot nd q c) _ hR ?_ ((grp t).size + 1) 0 q0 (Verif.BitMap.begin q0) h0 h0.cap (by omega) (by show ∏ i, t i + 1 ≤ _ + (∏ i, t i + 1); omega) (by omega)
      (full_front h0) (fun _ => Verif.BitMap.wordOf_eq _)
  · obtain ⟨q', e, hq'⟩ := key
    refine ⟨q', ?_, hq'⟩
    show (do let qr ← Verif.BitMap.fillAll (Verif.BitMap.make (∏ i, t i)); quotLoop nd b (grp t) ((grp t).size + 1) qr (Verif.BitMap.begin qr)) = _
    rw [e0, Res.ok_bind, quotLoop_eq, e]
  · intro q S a hq
    obtain ⟨c, e1, F, f1, f2⟩ := coset_spec nd hb (c := Verif.BitMap.make (∏ i, t i)) (T := ∅) ⟨∅, Verif.BitMap.C19_make hb.room, by simp⟩ a
    obtain ⟨c2, e2, f3⟩ := Verif.BitMap.C19_remove nd f1 (nbr_lt a)
    obtain ⟨F', f4, f5⟩ := hq
    obtain ⟨q', e3, f6⟩ := Verif.BitMap.C19_andnot nd f4 f3 le_rfl
    refine ⟨q', ?_, _, f6, fun g => ?_⟩
    · show (do
        let c ← coset nd (Verif.BitMap.make (∏ i, t i)) b (nbr a) (grp t)
        let c ← Verif.BitMap.remove nd c (nbr a)
        Verif.BitMap.andnot nd q c) = _
      rw [e1, Res.ok_bind, e2, Res.ok_bind, e3]
    · rw [mem_sdiff, mem_erase, f5, f2]
      simp only [Set.mem_ofPred_eq]
      refine and_congr_right fun _ => ?_
      constructor
      · intro h hh
        by_contra hne
        exact h ⟨fun e => hne (nbr_inj e), g - a, hh, by simp⟩
      · rintro h ⟨h1, y, hy, rfl⟩
        exact h1 (by rw [h (by simpa using hy)])

/-! ### cyclic subgroups -/

theorem same_cyclic (x y : G t) : (AddSubgroup.zmultiples x = AddSubgroup.zmultiples y ∧ y ≠ x) ↔
    ∃ i, 2 ≤ i ∧ i < addOrderOf x ∧ (addOrderOf x).gcd i = 1 ∧ y = i • x := by
  have hpos : 0 < addOrderOf x := addOrderOf_pos x
  constructor
  · rintro ⟨h, hne⟩
    have hy : y ∈ AddSubgroup.zmultiples x := by rw [h]; exact AddSubgroup.mem_zmultiples y
    obtain ⟨k, hk⟩ := AddSubgroup.mem_zmultiples_iff.1 hy
    have hk' : y = (k % (addOrderOf x : Int)).toNat • x := by
      rw [← hk, ← natCast_zsmul, Int.toNat_of_nonneg (Int.emod_nonneg _ (by omega)), mod_addOrderOf_zsmul]
    have hlt : (k % (addOrderOf x : Int)).toNat < addOrderOf x := by
      have := Int.emod_lt_of_pos k (show (0 : Int) < addOrderOf x by omega)
      omega
    generalize (k % (addOrderOf x : Int)).toNat = i at hk' hlt
    have ho : addOrderOf y = addOrderOf x := by
      rw [← Nat.card_zmultiples, ← Nat.card_zmultiples, h]
    rw [hk', addOrderOf_nsmul] at ho
    have hg : (addOrderOf x).gcd i = 1 := by
      have h1 := Nat.div_mul_cancel (Nat.gcd_dvd_left (addOrderOf x) i)
      rw [ho] at h1
      exact Nat.eq_of_mul_eq_mul_left hpos (by omega)
    refine ⟨i, ?_, hlt, hg, hk'⟩
    rcases Nat.lt_or_ge i 2 with c | c
    · exfalso
      interval_cases i
      · rw [Nat.gcd_zero_right] at hg
        have := AddMonoid.addOrderOf_eq_one_iff.1 hg
        exact hne (by rw [hk', this]; simp)
      · exact hne (by rw [hk', one_smul])
    · exact c
  · rintro ⟨i, h1, h2, h3, rfl⟩
    constructor
    · symm
      apply AddSubgroup.eq_of_le_of_card_ge
      · rw [AddSubgroup.zmultiples_le]
        exact AddSubgroup.nsmul_mem_zmultiples x i
      · rw [Nat.card_zmultiples, Nat.card_zmultiples, addOrderOf_nsmul, h3, Nat.div_one]
    · intro h
      have := nsmul_injOn_Iio_addOrderOf (x := x) (Set.mem_Iio.2 h2) (Set.mem_Iio.2 (by omega : 1 < addOrderOf x)) (by simpa using h)
      omega

theorem cycStep_spec (nd : Bool) (hc : Chain t) (h32 : ann t ≤ 2 ^ 32) {q : BitMap} {S : Set (G t)} (hq : Reps q S) (a : G t) :
    ∃ q', (do let n ← order (grp t) (nbr a); forUp (cycInner nd (grp t) (nbr a) n) (n - 2) 2 q) = .ok q' ∧
      Reps q' {g | g ∈ S ∧ (AddSubgroup.zmultiples a = AddSubgroup.zmultiples g → g = a)} := by
  rw [order_spec hq.lt, Res.ok_bind]
  have key := forUp_inv (body := cycInner nd (grp t) (nbr a) (addOrderOf a)) (fun i (c : BitMap) =>
      Reps c {g | g ∈ S ∧ ∀ j, 2 ≤ j → j < i → (addOrderOf a).gcd j = 1 → g ≠ j • a}) (addOrderOf a - 2) 2 q ?_ ?_
  · obtain ⟨q', e, h⟩ := key
    refine ⟨q', e, ?_⟩
    convert h using 1
    ext g
    simp only [Set.mem_ofPred_eq]
    refine and_congr_right fun _ => ?_
    have := same_cyclic a g
    constructor
    · intro h j h1 h2 h3 h4
      have := this.2 ⟨j, h1, by omega, h3, h4⟩
      exact this.2 (h this.1)
    · intro h h'
      by_contra hne
      obtain ⟨j, h1, h2, h3, h4⟩ := this.1 ⟨h', hne⟩
      exact h j h1 (by omega) h3 h4
  · convert hq using 1
    ext g
    simp only [Set.mem_ofPred_eq]
    exact ⟨fun h => h.1, fun h => ⟨h, fun j h1 h2 => by omega⟩⟩
  · intro i c h1 h2 hc'
    rw [cycInner, Arith.C14_unsignedGcd _ (by omega), Res.ok_bind]
    by_cases hg : (addOrderOf a).gcd i = 1
    · rw [if_pos hg, prod_spec hq.lt a i fun j => small_mul hc h32 a (by omega) j, Res.ok_bind]
      obtain ⟨F, f1, f2⟩ := hc'
      obtain ⟨c', e, f3⟩ := Verif.BitMap.C19_remove nd f1 (nbr_lt (i • a))
      refine ⟨c', e, _, f3, fun g => ?_⟩
      rw [mem_erase, f2]
      simp only [Set.mem_ofPred_eq]
      constructor
      · rintro ⟨h3, h4, h5⟩
        refine ⟨h4, fun j g1 g2 g3 g4 => ?_⟩
        rcases Nat.lt_succ_iff_lt_or_eq.1 g2 with c | rfl
        · exact h5 j g1 c g3 g4
        · exact h3 (by rw [g4])
      · rintro ⟨h3, h4⟩
        exact ⟨fun h => h4 i h1 (by omega) hg (nbr_inj h), h3, fun j g1 g2 => h4 j g1 (by omega)⟩
    · rw [if_neg hg]
      refine ⟨c, rfl, ?_⟩
      convert hc' using 1
      ext g
      simp only [Set.mem_ofPred_eq]
      refine and_congr_right fun _ => ?_
      constructor
      · intro h j g1 g2; exact h j g1 (by omega)
      · intro h j g1 g2 g3
        rcases Nat.lt_succ_iff_lt_or_eq.1 g2 with c | rfl
        · exact h j g1 c g3
        · exact absurd g3 hg

theorem cycGenerators_spec (nd : Bool) (hc : Chain t) (h32 : ann t ≤ 2 ^ 32) {l : List Nat} {b : BitMap} {c : Nat} {F : Finset Nat}
    (hb : Rep b c F) (hroom : ∏ i, t i + 64 ≤ 2 ^ 64) (hl : l ≠ List.ofFn t) :
    ∃ q, cycGenerators nd (l, b) (grp t) = .ok (List.ofFn t, q) ∧
      Reps q (Smallest fun x y : G t => AddSubgroup.zmultiples x = AddSubgroup.zmultiples y) := by
  obtain ⟨b1, e1, h1⟩ := Verif.BitMap.C19_setCapacity hb hroom
  obtain ⟨b2, e2, h2⟩ := Verif.BitMap.C19_fillAll h1
  have hf := full_front h2
  obtain ⟨it, e3, k1, k2, k3⟩ := Verif.BitMap.C19_next h2 (it := Verif.BitMap.begin b2) (Verif.BitMap.wordOf_eq _)
    (by show Verif.BitMap.front b2 < _; rw [hf]; exact prod_pos) h2.cap
  have hR : Equivalence fun x y : G t => AddSubgroup.zmultiples x = AddSubgroup.zmultiples y :=
    ⟨fun _ => rfl, fun h => h.symm, fun h h' => h.trans h'⟩
  have ha : it.addr = 1 := by
    have hb0 : (Verif.BitMap.begin b2).addr = 0 := hf
    rw [hb0] at k2
    rcases k2 with ⟨h3, h4, h5⟩ | ⟨h3, h4⟩
    · rw [mem_range] at h3
      have := h5 1 (mem_range.2 (by omega)) (by omega)
      omega
    · have hpos := prod_pos (t := t)
      rcases Nat.lt_or_ge 1 (∏ i, t i) with c | c
      · have := h4 1 (mem_range.2 c); omega
      · omega
  obtain ⟨q, e, hq⟩ := sieve_reps (step := fun q a => do
    let n ← order (grp t) a
    forUp (cycInner nd (grp t) a n) (n - 2) 2 q) _ hR (fun q S a hq => cycStep_spec nd hc h32 hq a) ((grp t).size + 1) 1 b2 it h2 k1 le_rfl
    (by show ∏ i, t i + 1 ≤ 1 + (∏ i, t i + 1); omega) (fun _ g h => by
      have : g ∈ AddSubgroup.zmultiples g := AddSubgroup.mem_zmultiples g
      rw [← h] at this
      simpa using this) ha k3
  refine ⟨q, ?_, hq⟩
  rw [cycGenerators, if_pos (show (l, b).1 ≠ (grp t).type from hl)]
  show (do
    let cyc ← Verif.BitMap.setCapacity b (∏ i, t i)
    let cyc ← Verif.BitMap.fillAll cyc
    let it ← Verif.BitMap.next cyc (Verif.BitMap.begin cyc)
    let cyc ← cycLoop nd (grp t) ((grp t).size + 1) cyc it
    return ((grp t).type, cyc)) = _
  rw [e1, Res.ok_bind, e2, Res.ok_bind, e3, Res.ok_bind, cycLoop_eq, e, Res.ok_bind]
  rfl

/-- the smallest elements of the classes form a system of representatives -/
theorem smallest_unique {R : G t → G t → Prop} (hR : Equivalence R) (g : G t) : ∃! s, s ∈ Smallest R ∧ R s g := by
  classical
  have hex : ∃ n, ∃ s : G t, R s g ∧ nbr s = n := ⟨_, g, hR.refl g, rfl⟩
  obtain ⟨s, h1, h2⟩ := Nat.find_spec hex
  have hmin : ∀ h, R h g → nbr s ≤ nbr h := fun h hh => by
    rw [h2]; exact Nat.find_min' hex ⟨h, hh, rfl⟩
  refine ⟨s, ⟨fun h hh => hmin h (hR.trans hh h1), h1⟩, fun s' ⟨h3, h4⟩ => ?_⟩
  exact nbr_inj (Nat.le_antisymm (h3 s (hR.trans h1 (hR.symm h4))) (hmin s' h4))

end Verif.Ab
