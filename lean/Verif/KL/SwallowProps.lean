import Verif.KL.Swallow
import Verif.KL.Props

/-!
# Tables that take over columns from tables of subblocks (C64)

`Built` describes all tables that can arise: a table is constructed empty, `fill` is called on it
with any limit, and it can swallow the table, that arose in the same manner, of any block that
stands for a part of its own block.  The numbering of elements and of reflections need not agree.
-/

set_option linter.unusedSectionVars false

namespace Verif.KL

open Polynomial

section
variable {B : Type} [Fintype B] [DecidableEq B]
variable {bs bt : Block} {b : Blk B} {D : Mod B → Mod B} {P : B → B → ℕ[X]} {el : ℕ → B} {M : ℕ}
variable {π : ℕ → ℕ} {embed : List ℕ} {nd : Bool}

/-- the tables that arise by any history of calls, for the block `bt` of the program that stands
for `b` by the numbering `el` -/
inductive Built (nd : Bool) (M : ℕ) (P : B → B → ℕ[X]) :
    (bt : Block) → (b : Blk B) → (el : ℕ → B) → Table → Prop
  | new {bt : Block} {b : Blk B} {el : ℕ → B} : Built nd M P bt b el (Table.new bt)
  | fill {bt : Block} {b : Blk B} {el : ℕ → B} {t t' : Table} {limit : ℕ} : Built nd M P bt b el t → fill nd M bt t limit = .ok t' →
      Built nd M P bt b el t'
  | swallow {bt : Block} {b : Blk B} {el : ℕ → B} {t ts t' : Table} {bs : Block} {π : ℕ → ℕ}
      {embed : List ℕ} : Built nd M P bt b el t →
      SubBlock bs bt b P el π embed →
      Built nd M P bs (b.permute π) (fun z => el (embed.getD z 0)) ts →
      swallow nd bs bt ts t embed = .ok t' → Built nd M P bt b el t'

theorem Built.ok {t : Table} (h : Built nd M P bt b el t) (hc : Ctx bt b D P el M) :
    TableOK bt b P el M t := by
  induction h with
  | new => exact TableOK.new
  | fill _ e ih =>
    rcases fill_ok hc nd (ih hc) _ with ⟨t1, h1, h2, _⟩ | ⟨h1, _⟩
    · rw [e] at h1; cases h1; exact h2
    · rw [e] at h1; cases h1
  | swallow _ hs _ e ih ihs =>
    obtain ⟨t1, h1, h2, _⟩ := swallow_ok hc hs nd (ihs (hs.ctx hc)) (ih hc)
    rw [e] at h1; cases h1; exact h2

/-- **C64**: for any history, the polynomials of the columns that are present are correct, whether
they were computed here or taken over -/
theorem C64_KL_pol {t : Table} (h : Built nd M P bt b el t) (hc : Ctx bt b D P el M) {x y : ℕ}
    (hx : x < bt.size) (hy : y < bt.size) (hn : y ∉ t.holes) :
    ∃ p, klPol nd bt t (some x) y = .ok p ∧ Coeffs p (P (el x) (el y)) := by
  obtain ⟨p, g1, g2⟩ := ((h.ok hc).filled y hy hn).klSome hc nd hx hy
  exact ⟨p, g1, g2.coeffs⟩

/-- **C64**: and so are their lists of nonzero mu, which contain each element once, by weakly
increasing length -/
theorem C64_mu_column {t : Table} (h : Built nd M P bt b el t) (hc : Ctx bt b D P el M) {y : ℕ}
    (hy : y < bt.size) (hn : y ∉ t.holes) : ∃ l, t.mu[y]? = some l ∧ (l.map Prod.fst).Nodup ∧
      (l.map (fun p => bt.length p.1)).Pairwise (· ≤ ·) ∧
      ∀ x c, (x, c) ∈ l ↔ x < bt.size ∧ c = mu b P (el x) (el y) ∧ c ≠ 0 := by
  obtain ⟨l, g1, g2, g3⟩ := ((h.ok hc).filled y hy hn).mu
  refine ⟨l, g1, g2.imp (fun h => h.1), ?_, g3⟩
  rw [List.pairwise_map] at g2 ⊢
  refine g2.imp_of_mem ?_
  rintro ⟨i, c⟩ ⟨j, d⟩ hi hj hij
  rw [hc.rep.len i ((g3 i c).1 hi).1, hc.rep.len j ((g3 j d).1 hj).1]
  exact hij.2

/-- **C64**: `mu(x,y)` for `x ≠ y` -/
theorem C64_mu {t : Table} (h : Built nd M P bt b el t) (hc : Ctx bt b D P el M) {x y : ℕ}
    (hx : x < bt.size) (hy : y < bt.size) (hn : y ∉ t.holes) (hne : x ≠ y) :
    muVal nd bt t x y = .ok (mu b P (el x) (el y)) :=
  muVal_ok hc nd hx hy ((h.ok hc).filled y hy hn) hne

/-- **C64**: `swallow` always succeeds, with or without assertions, and the columns present
afterwards are those that were there before and those of the subblock -/
theorem C64_swallow {t ts : Table} (h : Built nd M P bt b el t) (hc : Ctx bt b D P el M)
    (hs : SubBlock bs bt b P el π embed)
    (hts : Built nd M P bs (b.permute π) (fun z => el (embed.getD z 0)) ts) :
    ∃ t', swallow nd bs bt ts t embed = .ok t' ∧ Built nd M P bt b el t' ∧
      ∀ y, y < bt.size → (y ∉ t'.holes ↔ y ∉ t.holes ∨ ∃ z, z ∉ ts.holes ∧ embed[z]? = some y) := by
  obtain ⟨t', h1, _, h3⟩ := swallow_ok hc hs nd (hts.ok (hs.ctx hc)) (h.ok hc)
  refine ⟨t', h1, .swallow h hs hts h1, fun y hy => ?_⟩
  rw [h3]
  constructor
  · intro g
    by_cases hh : y ∈ t.holes
    · right
      by_contra hcon
      refine g ⟨hh, fun z hz hzh e => hcon ⟨z, hzh, ?_⟩⟩
      rw [hs.get hz, e]
    · exact Or.inl hh
  · rintro (g | ⟨z, g1, g2⟩) ⟨k1, k2⟩
    · exact g k1
    · have hz : z < bs.size := by
        rw [← hs.length]
        by_contra hcon
        rw [List.getElem?_eq_none (by omega)] at g2; cases g2
      refine k2 z hz g1 ?_
      have := hs.get hz
      rw [g2] at this
      exact (Option.some.inj this).symm

/-- **C64**: a later `fill` computes exactly the columns that are still missing below the limit; it
can only fail by the exception for numeric overflow -/
theorem C64_fill {t : Table} (h : Built nd M P bt b el t) (hc : Ctx bt b D P el M) (limit : ℕ) :
    (∃ t', fill nd M bt t limit = .ok t' ∧ Built nd M P bt b el t' ∧
      ∀ y, y ∈ t'.holes ↔ y ∈ t.holes ∧ (if limit = 0 then bt.size else limit) ≤ y) ∨
    (fill nd M bt t limit = .throw ∧ ∃ x y i, M ≤ 4 * (P x y).coeff i) := by
  rcases fill_ok hc nd (h.ok hc) limit with ⟨t', h1, _, h3, _⟩ | ⟨h1, h2⟩
  · exact Or.inl ⟨t', h1, .fill h h1, h3⟩
  · right
    refine ⟨h1, ?_⟩
    by_contra hcon
    push Not at hcon
    exact h2 hcon

/-- **C64**: taking over columns gives the same polynomials as computing them -/
theorem C64_history {nd' : Bool} {t t' : Table} (h : Built nd M P bt b el t)
    (h' : Built nd' M P bt b el t') (hc : Ctx bt b D P el M) {x y : ℕ} (hx : x < bt.size)
    (hy : y < bt.size) (hn : y ∉ t.holes) (hn' : y ∉ t'.holes) :
    ∃ p, klPol nd bt t (some x) y = .ok p ∧ klPol nd' bt t' (some x) y = .ok p := by
  obtain ⟨p, g1, g2⟩ := C64_KL_pol h hc hx hy hn
  obtain ⟨p', g3, g4⟩ := C64_KL_pol h' hc hx hy hn'
  exact ⟨p, g1, by rw [g3, g4.unique g2]⟩

end

/-! ### A case that meets the hypotheses

Four of the six elements of the block of `SL(3,R)`, in another order, and with the two reflections
interchanged. -/

namespace Example

def emb : List ℕ := [0, 2, 1, 5]
def swap (s : ℕ) : ℕ := 1 - s
def pos (x : ℕ) : Option ℕ := emb.findIdx? (fun y => y == x)

/-- the block of the program for these four elements -/
def bs : Block where
  rank := 2
  size := 4
  length i := len (emb.getD i 0)
  status s i := st (swap s) (emb.getD i 0)
  crossImage s i := pos (cross (swap s) (emb.getD i 0))
  cayleyImage s i := ((bt.cayleyImage (swap s) (emb.getD i 0)).1.bind pos,
    (bt.cayleyImage (swap s) (emb.getD i 0)).2.bind pos)

instance (n : ℕ) (o : Option ℕ) (el : ℕ → Fin 6) (z : Fin 6) : Decidable (Names n el o z) := by
  unfold Names
  cases o <;> infer_instance

theorem sub : SubBlock bs bt b P el swap emb where
  perm := by
    have h : ∀ s < 2, swap s < 2 := by decide
    exact h
  surj := by
    have h : ∀ s < 2, ∃ s' < 2, swap s' = s := by decide
    exact h
  length := rfl
  lt := by decide
  rep := {
    rank := rfl
    inj := by
      intro i j hi hj
      have h : ∀ i < 4, ∀ j < 4, el (emb.getD i 0) = el (emb.getD j 0) → i = j := by decide
      exact h i hi j hj
    len := by
      intro i hi
      have h : ∀ i < 4, bs.length i = b.len (el (emb.getD i 0)) := by decide
      exact h i hi
    mono := by
      intro i j h1 h2
      have h : ∀ j < 4, ∀ i ≤ j, bs.length i ≤ bs.length j := by decide
      exact h j h2 i h1
    bound := by
      intro i hi
      have h : ∀ i < 4, bs.length i < 2 ^ 16 := by decide
      exact h i hi
    st := by
      intro s i hs hi
      have h : ∀ s < 2, ∀ i < 4, bs.status s i = b.st (swap s) (el (emb.getD i 0)) := by decide
      exact h s hs i hi
    cross := by
      intro s i hs hi
      have h : ∀ s < 2, ∀ i < 4, Names 4 (fun z => el (emb.getD z 0)) (bs.crossImage s i)
        (b.cross (swap s) (el (emb.getD i 0))) := by decide +kernel
      exact h s hs i hi
    cay1 := by
      intro s i hs hi h1
      have h : ∀ s < 2, ∀ i < 4, bs.status s i ∈ [.imaginaryTypeI, .imaginaryTypeII, .realTypeI,
        .realTypeII] → Names 4 (fun z => el (emb.getD z 0)) (bs.cayleyImage s i).1
          (b.cay (swap s) (el (emb.getD i 0))).1 := by decide +kernel
      exact h s hs i hi h1
    cay2 := by
      intro s i hs hi h1
      have h : ∀ s < 2, ∀ i < 4, bs.status s i ∈ [.imaginaryTypeII, .realTypeI] →
        Names 4 (fun z => el (emb.getD z 0)) (bs.cayleyImage s i).2
          (b.cay (swap s) (el (emb.getD i 0))).2 := by decide +kernel
      exact h s hs i hi h1
    cay2_i1 := by
      intro s i hs hi h1
      have h : ∀ s < 2, ∀ i < 4, bs.status s i = .imaginaryTypeI →
        (bs.cayleyImage s i).2 = none := by decide
      exact h s hs i hi h1 }
  closed := by
    intro y hy z hz
    have h : ∀ y ∈ emb, ∀ z, le z (el y) = true → ∃ j ∈ emb, el j = z := by decide +kernel
    apply h y hy
    by_contra hcon
    exact hz (if_neg hcon)

/-- a table for the whole block in which only the column of 0 was computed swallows the complete
table of the part: all columns are then present except those of 3 and 4, and a further `fill`
completes it -/
example : ∃ ts t t' t'', fill false (2 ^ 32) bs (Table.new bs) 0 = .ok ts ∧
    fill false (2 ^ 32) bt (Table.new bt) 1 = .ok t ∧ swallow false bs bt ts t emb = .ok t' ∧
    (∀ y, y < 6 → (y ∈ t'.holes ↔ y = 3 ∨ y = 4)) ∧ fill false (2 ^ 32) bt t' 0 = .ok t'' ∧
    t''.holes = [] ∧ Built false (2 ^ 32) P bt b el t'' := by
  have hov : ¬ ∃ x y i, 2 ^ 32 ≤ 4 * (P x y).coeff i := by
    rintro ⟨x, y, i, h⟩; have := small x y i; omega
  rcases C64_fill (nd := false) .new (sub.ctx ctx) 0 with ⟨ts, s1, s2, s3⟩ | ⟨_, h⟩
  swap
  · exact absurd h hov
  rcases C64_fill (nd := false) .new ctx 1 with ⟨t, h1, h2, h3⟩ | ⟨_, h⟩
  swap
  · exact absurd h hov
  obtain ⟨t', g1, g2, g3⟩ := C64_swallow h2 ctx sub s2
  rcases C64_fill g2 ctx 0 with ⟨t'', k1, k2, k3⟩ | ⟨_, h⟩
  swap
  · exact absurd h hov
  refine ⟨ts, t, t', t'', s1, h1, g1, ?_, k1, ?_, k2⟩
  · intro y hy
    have hts : ∀ z, z < 4 → z ∉ ts.holes := by
      intro z hz hz'
      have := ((s3 z).1 hz').2
      rw [if_pos rfl] at this
      have e : bs.size = 4 := rfl
      omega
    have ht : y ∈ t.holes ↔ 1 ≤ y := by
      rw [h3]
      have : y ∈ (Table.new bt).holes := List.mem_range.2 hy
      simp [this]
    rw [← not_iff_not, g3 y hy, ht]
    have hfin : ∀ y < 6, (¬ 1 ≤ y ∨ ∃ z < 4, emb[z]? = some y) ↔ ¬ (y = 3 ∨ y = 4) := by decide
    rw [← hfin y hy]
    constructor
    · rintro (g | ⟨z, _, e⟩)
      · exact Or.inl g
      · refine Or.inr ⟨z, ?_, e⟩
        by_contra hcon
        rw [List.getElem?_eq_none (show emb.length ≤ z by show 4 ≤ z; omega)] at e; cases e
    · rintro (g | ⟨z, hz, e⟩)
      · exact Or.inl g
      · exact Or.inr ⟨z, hts z hz, e⟩
  · rw [List.eq_nil_iff_forall_not_mem]
    intro y hy
    have h1 := (k3 y).1 hy
    rw [if_pos rfl] at h1
    have := (g2.ok ctx).lt y h1.1
    omega

end Example

end Verif.KL
