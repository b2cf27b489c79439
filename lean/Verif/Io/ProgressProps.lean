import Verif.Io.Progress
import Verif.Io.FilesProps
/-
C95: files of progress.
-/
namespace Verif.Io
open Verif

/-- a file with, for each row, 8 bytes that are not used and a number of new polynomials in 4 bytes -/
def progressFile : List (List Nat × Nat) → List Nat
  | [] => []
  | r :: l => r.1 ++ putInt r.2 ++ progressFile l

/-- the files considered: the total number of polynomials fits in 32 bits -/
structure Rows (rows : List (List Nat × Nat)) : Prop where
  unused : ∀ r ∈ rows, r.1.length = 8
  total : (rows.map Prod.snd).sum < 2 ^ 32

theorem progressFile_length : ∀ (rows : List (List Nat × Nat)), (∀ r ∈ rows, r.1.length = 8) → (progressFile rows).length = 12 * rows.length
  | [], _ => rfl
  | r :: l, h => by
    rw [progressFile, List.length_append, List.length_append, h r (by simp), putInt_length, progressFile_length l fun r hr => h r (by simp [hr]), List.length_cons]
    omega

theorem progressLoop_spec : ∀ (rows : List (List Nat × Nat)) (last : Nat), (∀ r ∈ rows, r.1.length = 8) → last + (rows.map Prod.snd).sum < 2 ^ 32 →
    ∃ f, progressLoop rows.length last (progressFile rows) = .ok f ∧ f.length = rows.length ∧ ∀ y, y < rows.length → f[y]? = some (last + ((rows.take (y + 1)).map Prod.snd).sum)
  | [], _, _, _ => ⟨[], rfl, rfl, by simp⟩
  | r :: l, last, h, ht => by
    rw [List.map_cons, List.sum_cons] at ht
    obtain ⟨f, h1, h2, h3⟩ := progressLoop_spec l (last + r.2) (fun r hr => h r (by simp [hr])) (by omega)
    have e8 : (r.1 ++ putInt r.2 ++ progressFile l).drop 8 = putInt r.2 ++ progressFile l := by rw [List.append_assoc, List.drop_left' (h r (by simp))]
    have e12 : (r.1 ++ putInt r.2 ++ progressFile l).drop 12 = progressFile l := List.drop_left' (by rw [List.length_append, h r (by simp), putInt_length])
    refine ⟨(last + r.2) :: f, ?_, by simp [h2], ?_⟩
    · rw [List.length_cons, progressLoop, progressFile, e8, e12, putInt_read (by omega), Res.ok_bind, Nat.mod_eq_of_lt (by omega), h1, Res.ok_bind, Res.pure_eq]
    · intro y hy
      cases y with
      | zero => simp
      | succ y =>
        rw [List.getElem?_cons_succ, h3 y (by simpa using hy), List.take_succ_cons, List.map_cons, List.sum_cons]
        congr 1
        omega

/-- C95: the number of rows is found, and for each row the number of distinct polynomials in rows before; a polynomial is attributed to row `y` just if its number is one of those that are new in this row, and beyond all rows just if there are not so many polynomials -/
theorem C95_progress (rows : List (List Nat × Nat)) (hr : Rows rows) : ∃ f, openProgress (progressFile rows) = .ok f ∧ progressSize f = rows.length ∧
    (∀ y, y ≤ rows.length → firstNew f y = .ok ((rows.take y).map Prod.snd).sum) ∧
    (∀ i y, y < rows.length → (firstRow f i = y ↔ ((rows.take y).map Prod.snd).sum ≤ i ∧ i < ((rows.take (y + 1)).map Prod.snd).sum)) ∧
    ∀ i, firstRow f i = rows.length ↔ (rows.map Prod.snd).sum ≤ i := by
  obtain ⟨f, h1, h2, h3⟩ := progressLoop_spec rows 0 hr.unused (by have := hr.total; omega)
  have hl := progressFile_length rows hr.unused
  have hmono : ∀ a b, a ≤ b → ((rows.take a).map Prod.snd).sum ≤ ((rows.take b).map Prod.snd).sum := by
    intro a b hab
    have e : rows.take b = rows.take a ++ (rows.take b).drop a := by
      conv => lhs; rw [← List.take_append_drop a (rows.take b)]
      rw [List.take_take, Nat.min_eq_left hab]
    rw [e, List.map_append, List.sum_append]
    omega
  have hget : ∀ y (hy : y < f.length), f[y] = ((rows.take (y + 1)).map Prod.snd).sum := by
    intro y hy
    have := h3 y (by omega)
    rw [List.getElem?_eq_getElem hy] at this
    simpa using this
  have hidx : ∀ i y, y < rows.length → (firstRow (0 :: f) i = y ↔ ((rows.take y).map Prod.snd).sum ≤ i ∧ i < ((rows.take (y + 1)).map Prod.snd).sum) := by
    intro i y hy
    show f.findIdx (fun v => decide (i < v)) = y ↔ _
    rw [List.findIdx_eq (by omega)]
    simp only [hget, decide_eq_true_eq, decide_eq_false_iff_not]
    constructor
    · rintro ⟨a1, a2⟩
      refine ⟨?_, a1⟩
      cases y with
      | zero => simp
      | succ y =>
        have := a2 y (by omega)
        omega
    · rintro ⟨a1, a2⟩
      refine ⟨a2, fun j hj => ?_⟩
      have := hmono (j + 1) y (by omega)
      omega
  refine ⟨0 :: f, ?_, by simp [progressSize, h2], ?_, hidx, ?_⟩
  · rw [openProgress, hl, if_neg (by omega), Nat.mul_div_cancel_left _ (by omega), h1, Res.ok_bind, Res.pure_eq]
  · intro y hy
    cases y with
    | zero => simp [firstNew]
    | succ y => simp only [firstNew, List.getElem?_cons_succ, h3 y (by omega), Nat.zero_add]
  · intro i
    show f.findIdx (fun v => decide (i < v)) = rows.length ↔ _
    rw [← h2, List.findIdx_eq_length]
    constructor
    · intro h
      cases hn : rows.length with
      | zero => rw [List.length_eq_zero_iff.1 hn]; simp
      | succ n =>
        have hlt : n < f.length := by omega
        have := h _ (List.getElem_mem hlt)
        rw [hget n hlt, ← hn, List.take_length] at this
        simpa using this
    · intro h v hv
      obtain ⟨y, hy, rfl⟩ := List.getElem_of_mem hv
      have := hmono (y + 1) rows.length (by omega)
      rw [List.take_length] at this
      rw [hget y hy, decide_eq_false_iff_not]
      omega

/-- C95: files of other sizes are refused -/
theorem C95_size (file : List Nat) : openProgress file = .throw ↔ ¬ 12 ∣ file.length := by
  rw [openProgress]
  have key : ∀ (k last : Nat) (l : List Nat), 12 * k ≤ l.length → ∃ f, progressLoop k last l = .ok f := by
    intro k
    induction k with
    | zero => exact fun _ _ _ => ⟨[], rfl⟩
    | succ k ih =>
      intro last l hl
      have hr : ∀ (n : Nat) (m : List Nat), n ≤ m.length → ∃ v, readBytes n m = .ok v := by
        intro n
        induction n with
        | zero => exact fun m _ => ⟨0, by cases m <;> rfl⟩
        | succ n ihn =>
          intro m hm
          cases m with
          | nil => simp at hm
          | cons a m =>
            obtain ⟨v, hv⟩ := ihn m (by simpa using hm)
            exact ⟨_, by rw [readBytes, hv, Res.ok_bind, Res.pure_eq]⟩
      obtain ⟨c, hc⟩ := hr 4 (l.drop 8) (by rw [List.length_drop]; omega)
      obtain ⟨f, hf⟩ := ih ((last + c) % 2 ^ 32) (l.drop 12) (by rw [List.length_drop]; omega)
      exact ⟨_, by rw [progressLoop, hc, Res.ok_bind, hf, Res.ok_bind, Res.pure_eq]⟩
  by_cases h : file.length % 12 = 0
  · obtain ⟨f, hf⟩ := key (file.length / 12) 0 file (by omega)
    rw [if_neg (by omega), hf, Res.ok_bind, Res.pure_eq]
    constructor
    · intro e; cases e
    · intro e; exact (e (Nat.dvd_of_mod_eq_zero h)).elim
  · rw [if_pos h]
    exact ⟨fun _ => by omega, fun _ => rfl⟩

example : Rows [([0, 0, 0, 0, 0, 0, 0, 0], 2), ([1, 0, 0, 0, 5, 0, 0, 0], 0), ([2, 0, 0, 0, 5, 0, 0, 0], 3)] := ⟨by decide, by decide⟩
example : (openProgress (progressFile [([0, 0, 0, 0, 0, 0, 0, 0], 2), ([1, 0, 0, 0, 5, 0, 0, 0], 0), ([2, 0, 0, 0, 5, 0, 0, 0], 3)]) = .ok [0, 2, 2, 5]) ∧ firstRow [0, 2, 2, 5] 2 = 2 ∧ firstRow [0, 2, 2, 5] 5 = 3 := by decide +kernel

end Verif.Io
