import Verif.KL.NewRec

/-! Filling the table, in any sequence of calls of `fill`. -/

set_option linter.unusedSectionVars false

namespace Verif.KL

open Polynomial

variable {B : Type} [Fintype B] [DecidableEq B]
variable {bt : Block} {b : Blk B} {D : Mod B → Mod B} {P : B → B → ℕ[X]} {el : ℕ → B} {M : ℕ}

/-- the invariant of the table between calls -/
structure TableOK (bt : Block) (b : Blk B) (P : B → B → ℕ[X]) (el : ℕ → B) (M : ℕ) (t : Table) :
    Prop where
  kl : t.kl.length = bt.size
  mu : t.mu.length = bt.size
  recs : RecsOK bt P el t
  sorted : t.holes.Pairwise (· < ·)
  lt : ∀ y ∈ t.holes, y < bt.size
  filled : ∀ y, y < bt.size → y ∉ t.holes → Filled bt b P el M t y
  empty : ∀ y ∈ t.holes, t.kl[y]? = some []

theorem TableOK.new : TableOK bt b P el M (Table.new bt) := by
  refine ⟨by simp [Table.new], by simp [Table.new], ?_, ?_, ?_, ?_, ?_⟩
  · intro A r h; simp [Table.new] at h
  · exact List.pairwise_lt_range
  · intro y h; simpa [Table.new] using h
  · intro y h h'; exact absurd (by simpa [Table.new] using h) h'
  · intro y h
    have : y < bt.size := by simpa [Table.new] using h
    simp [Table.new, this]

theorem Filled.transfer {t t' : Table} {z : ℕ} (h : Filled bt b P el M t z)
    (h1 : t'.kl[z]? = t.kl[z]?) (h2 : t'.mu[z]? = t.mu[z]?)
    (h3 : ∀ A r, t.prim.lookup A = some r → t'.prim.lookup A = some r) :
    Filled bt b P el M t' z := by
  obtain ⟨⟨f, col, k1, k2, k3, k4, k5⟩, ⟨l, m1, m2⟩, ⟨r, r1, r2⟩⟩ := h
  exact ⟨⟨f, col, k1, k2, by rw [h1, k3], k4, k5⟩, ⟨l, by rw [h2, m1], m2⟩, ⟨r, h3 _ _ r1, r2⟩⟩

/-- the lists of nonzero mu are in increasing order; this is so for all columns that were computed
rather than taken from another table -/
def MuSorted (bt : Block) (t : Table) : Prop :=
  ∀ y, y < bt.size → y ∉ t.holes → ∀ l, t.mu[y]? = some l → (l.map Prod.fst).Pairwise (· < ·)

theorem MuSorted.new : MuSorted bt (Table.new bt) := by
  intro y h h'; exact absurd (by simpa [Table.new] using h) h'

theorem fillColumn_ok (hc : Ctx bt b D P el M) (nd : Bool) {t : Table} (h : TableOK bt b P el M t)
    {y : ℕ} (hy : y ∈ t.holes) (hbelow : ∀ z, z < y → z ∉ t.holes) :
    Ok (Small P M) (fillColumn nd M bt t y) (fun t' => t'.holes = t.holes ∧
      TableOK bt b P el M { t' with holes := t'.holes.erase y } ∧
      (MuSorted bt t → MuSorted bt { t' with holes := t'.holes.erase y })) := by
  have hys := h.lt y hy
  obtain ⟨f, hf, hfl⟩ := lengthFloor_ok hc.rep hys
  obtain ⟨t1, e1, p1, p2, p3, p4, ⟨r, p5⟩, p6⟩ := preparePrimIndex_ok hc nd (bt.descentSet y) h.recs
  have hrec : ∃ r, t1.prim.lookup (bt.descentSet y) = some r ∧ RecOK bt P el (bt.descentSet y) r :=
    ⟨r, p5, p1 _ _ p5⟩
  have hfil : ∀ z, z < bt.size → z ∉ t.holes → Filled bt b P el M t1 z := fun z hz hn =>
    (h.filled z hz hn).transfer (by rw [p2]) (by rw [p3]) p6
  have hb1 : ∀ z, z < y → Filled bt b P el M t1 z := fun z hz =>
    hfil z (by omega) (hbelow z hz)
  have hnd : t.holes.Nodup := h.sorted.imp (fun g => Nat.ne_of_lt g)
  have hfin : ∀ t', Filled bt b P el M t' y ∧ Changed t1 t' y → t'.holes = t.holes ∧
      TableOK bt b P el M { t' with holes := t'.holes.erase y } ∧
      (MuSorted bt t → MuSorted bt { t' with holes := t'.holes.erase y }) := by
    rintro t' ⟨g1, g2, g3, ⟨col, g4⟩, ⟨l, g5, g6⟩⟩
    have eh : t'.holes = t.holes := by rw [g3, p4]
    refine ⟨eh, ?_, ?_⟩
    swap
    · intro hms z hz hn l' hl'
      by_cases e : z = y
      · subst e
        have : (t1.mu.set z l)[z]? = some l' := by rw [← g5]; exact hl'
        rw [List.getElem?_set_self (by rw [p3, h.mu]; exact hz)] at this
        cases this; exact g6
      · refine hms z hz (fun h' => hn ?_) l' ?_
        · show z ∈ t'.holes.erase y
          rw [eh]; exact (List.mem_erase_of_ne e).2 h'
        · have : (t1.mu.set y l)[z]? = some l' := by rw [← g5]; exact hl'
          rwa [List.getElem?_set_ne (Ne.symm e), p3] at this
    rw [eh]
    refine ⟨?_, ?_, ?_, ?_, ?_, ?_, ?_⟩
    · show t'.kl.length = _; rw [g4, List.length_set, p2, h.kl]
    · show t'.mu.length = _; rw [g5, List.length_set, p3, h.mu]
    · intro A r' hr'
      exact p1 A r' (by rw [← g2]; exact hr')
    · exact h.sorted.sublist List.erase_sublist
    · intro z hz; exact h.lt z (List.mem_of_mem_erase hz)
    · intro z hz hn
      by_cases e : z = y
      · subst e
        exact g1.transfer rfl rfl (fun _ _ h => h)
      · have hn' : z ∉ t.holes := fun h' => hn ((List.mem_erase_of_ne e).2 h')
        refine (hfil z hz hn').transfer ?_ ?_ ?_
        · show t'.kl[z]? = _; rw [g4, List.getElem?_set_ne (Ne.symm e)]
        · show t'.mu[z]? = _; rw [g5, List.getElem?_set_ne (Ne.symm e)]
        · intro A r' hr'; show t'.prim.lookup A = _; rw [g2, hr']
    · intro z hz
      have hne : z ≠ y := by intro e; subst e; exact (hnd.not_mem_erase) hz
      show t'.kl[z]? = _
      rw [g4, List.getElem?_set_ne (Ne.symm hne), p2]
      exact h.empty z (List.mem_of_mem_erase hz)
  rw [fillColumn, e1, Res.ok_bind]
  cases hfd : bt.firstDirectRecursion y with
  | some s =>
    dsimp only
    refine Ok.bind (recursionColumn_ok hc nd hys hf hfl hfd hrec hb1) (fun klv hklv => ?_)
    exact (completePrimitives_ok hc nd hys hf hfl (by rw [p2, h.kl]) (by rw [p3, h.mu]) hrec
      hklv).mono hfin
  | none =>
    dsimp only
    exact (newRecursionColumn_ok hc nd hys hf hfl hfd (by rw [p2, h.kl]) (by rw [p3, h.mu])
      (by rw [p2]; exact h.empty y hy) hrec hb1).mono hfin

theorem fillLoop_ok (hc : Ctx bt b D P el M) (nd : Bool) : ∀ (l rest : List ℕ) (t : Table),
    TableOK bt b P el M t → t.holes = l ++ rest →
    Ok (Small P M) (fillLoop nd M bt l t) (fun t' => TableOK bt b P el M t' ∧ t'.holes = rest ∧
      (MuSorted bt t → MuSorted bt t')) := by
  intro l
  induction l with
  | nil => intro rest t h e; exact Ok.ret ⟨h, by simpa using e, id⟩
  | cons y l ih =>
    intro rest t h e
    rw [List.cons_append] at e
    have hso := h.sorted
    rw [e, List.pairwise_cons] at hso
    rw [fillLoop]
    refine Ok.bind (fillColumn_ok hc nd h (by rw [e]; simp) ?_) (fun t' ht' => ?_)
    · intro z hz hm
      rw [e] at hm
      rcases List.mem_cons.1 hm with e' | e'
      · omega
      · have := hso.1 z e'; omega
    · refine (ih rest _ ht'.2.1 ?_).mono (fun t'' g => ⟨g.1, g.2.1, fun hm => g.2.2 (ht'.2.2 hm)⟩)
      show t'.holes.erase y = _
      rw [ht'.1, e, List.erase_cons_head]

/-- the limit of a call of `fill`, where 0 stands for no limit -/
def limitOf (bt : Block) (limit : ℕ) : ℕ := if limit = 0 then bt.size else limit

theorem fill_ok (hc : Ctx bt b D P el M) (nd : Bool) {t : Table} (h : TableOK bt b P el M t)
    (limit : ℕ) : Ok (Small P M) (fill nd M bt t limit) (fun t' => TableOK bt b P el M t' ∧
      (∀ y, y ∈ t'.holes ↔ y ∈ t.holes ∧ limitOf bt limit ≤ y) ∧
      (MuSorted bt t → MuSorted bt t')) := by
  rw [fill]
  change Ok _ (match t.holes.head? with
    | none => .ok t
    | some h => if limitOf bt limit ≤ h then .ok t else
      fillLoop nd M bt (t.holes.takeWhile (fun y => decide (y < limitOf bt limit))) t) _
  have hso := h.sorted
  cases e : t.holes with
  | nil => exact Ok.ret ⟨h, by rw [e]; simp, id⟩
  | cons a l =>
    rw [List.head?_cons]
    dsimp only
    rw [e] at hso
    by_cases ha : limitOf bt limit ≤ a
    · rw [if_pos ha]
      refine Ok.ret ⟨h, fun y => ?_, id⟩
      rw [e]
      refine ⟨fun hy => ⟨hy, ?_⟩, fun hy => hy.1⟩
      rcases List.mem_cons.1 hy with e' | e'
      · omega
      · have := (List.pairwise_cons.1 hso).1 y e'; omega
    · rw [if_neg ha]
      refine (fillLoop_ok hc nd _ ((a :: l).dropWhile (fun y => decide (y < limitOf bt limit))) t h
        (by rw [List.takeWhile_append_dropWhile, e])).mono ?_
      rintro t' ⟨g1, g2, g3⟩
      refine ⟨g1, fun y => ?_, g3⟩
      rw [g2]
      generalize a :: l = hs at hso
      generalize limitOf bt limit = lim
      induction hs with
      | nil => simp
      | cons c hs ih =>
        rw [List.pairwise_cons] at hso
        by_cases hcl : c < lim
        · rw [List.dropWhile_cons_of_pos (by simpa using hcl), ih hso.2, List.mem_cons]
          constructor
          · rintro ⟨k1, k2⟩; exact ⟨Or.inr k1, k2⟩
          · rintro ⟨k1 | k1, k2⟩
            · omega
            · exact ⟨k1, k2⟩
        · rw [List.dropWhile_cons_of_neg (by simpa using hcl)]
          refine ⟨fun k => ⟨k, ?_⟩, fun k => k.1⟩
          rcases List.mem_cons.1 k with e' | e'
          · omega
          · have := hso.1 y e'; omega

/-- a sequence of calls of `fill` on one table -/
def fills (nd : Bool) (M : ℕ) (bt : Block) : List ℕ → Table → Res Table
  | [], t => .ok t
  | l :: ls, t => do
    let t ← fill nd M bt t l
    fills nd M bt ls t

theorem fills_ok (hc : Ctx bt b D P el M) (nd : Bool) : ∀ (ls : List ℕ) (t : Table),
    TableOK bt b P el M t → Ok (Small P M) (fills nd M bt ls t) (fun t' => TableOK bt b P el M t' ∧
      (∀ y, y ∈ t'.holes ↔ y ∈ t.holes ∧ ∀ l ∈ ls, limitOf bt l ≤ y) ∧
      (MuSorted bt t → MuSorted bt t')) := by
  intro ls
  induction ls with
  | nil => intro t h; exact Ok.ret ⟨h, by simp, id⟩
  | cons l ls ih =>
    intro t h
    rw [fills]
    refine Ok.bind (fill_ok hc nd h l) (fun t1 h1 => ?_)
    refine (ih t1 h1.1).mono ?_
    rintro t2 ⟨g1, g2, g3⟩
    refine ⟨g1, fun y => ?_, fun hm => g3 (h1.2.2 hm)⟩
    rw [g2, h1.2.1]
    simp only [List.mem_cons, forall_eq_or_imp]
    tauto

end Verif.KL
