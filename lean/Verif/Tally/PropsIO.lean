import Verif.Tally.Props
import Mathlib.Tactic.NormNum
import Mathlib.Tactic.SplitIfs
/-
C44: binary output and input of integers, and dump and recovery of a `TallyVec`.
-/
namespace Verif.Tally
set_option linter.dupNamespace false

theorem writeBytes_succ (n v : Nat) : writeBytes (n + 2) v = v % 256 :: writeBytes (n + 1) (v / 256) := by
  rw [writeBytes]
  rw [show v &&& 255 = v % 256 from Nat.and_two_pow_sub_one_eq_mod v 8, Nat.shiftRight_eq_div_pow]
  omega

/-- With the usual order of evaluation, `read_bytes<n>` gives back any number below `256^n` written
by `write_bytes<n>`, for `1 ≤ n ≤ 8`, and leaves what follows in the input. -/
theorem C44_bytes (n : Nat) (hn : 0 < n) (hn8 : n ≤ 8) (v : Nat) (hv : v < 256 ^ n) (rest : List Nat) :
    readBytes true n (writeBytes n v ++ rest) = (v, rest) := by
  induction n generalizing v with
  | zero => omega
  | succ n ih =>
    cases n with
    | zero =>
      rw [show writeBytes 1 v = [v % 256] from rfl]
      rw [Nat.mod_eq_of_lt (by simpa using hv)]; rfl
    | succ n =>
      rw [writeBytes_succ, List.cons_append, readBytes, if_pos rfl]
      simp only [getByte]
      have hq : v / 256 < 256 ^ (n + 1) := by
        rw [Nat.div_lt_iff_lt_mul (by omega), ← pow_succ]; exact hv
      rw [ih (by omega) (by omega) _ hq]
      simp only
      have hb : v < 2 ^ 64 := by
        refine lt_of_lt_of_le hv ?_
        calc 256 ^ (n + 2) ≤ 256 ^ 8 := Nat.pow_le_pow_right (by omega) hn8
          _ = 2 ^ 64 := by norm_num
      rw [Nat.shiftLeft_eq, show (2:Nat) ^ 8 = 256 by norm_num]
      rw [u64_small (x := v / 256 * 256) (by omega), u64_small (by omega)]
      congr 1
      omega

example : (0:Nat) < 3 ∧ 3 ≤ 8 ∧ (197121:Nat) < 256 ^ 3 ∧ writeBytes 3 197121 = [1, 2, 3] := by decide

/-- Finding F28: a compiler may evaluate the right operand of `+` first, and then bytes are read in
the opposite order. -/
theorem C44_bytes_false : readBytes false 2 (writeBytes 2 1) = (256, []) := by decide

/-- what is written is bytes: `n` of them -/
theorem C44_length (n : Nat) (v : Nat) : (writeBytes n v).length = n ∧ ∀ b ∈ writeBytes n v, b < 256 := by
  induction n generalizing v with
  | zero => simp [writeBytes]
  | succ n ih =>
    cases n with
    | zero => simp [writeBytes, Nat.mod_lt]
    | succ n =>
      rw [writeBytes_succ]
      refine ⟨by simp [(ih _).1], fun b hb => ?_⟩
      rcases List.mem_cons.1 hb with rfl | hb
      · exact Nat.mod_lt _ (by omega)
      · exact (ih _).2 b hb

theorem readCounts_spec (w : Nat) (hw : 0 < w) (hw8 : w ≤ 8) (l : List Nat) (hl : ∀ v ∈ l, v < 256 ^ w) (rest : List Nat) :
    readCounts true w l.length (l.flatMap (writeBytes w) ++ rest) = (l, rest) := by
  induction l with
  | nil => rfl
  | cons v l ih =>
    rw [List.length_cons, readCounts, List.flatMap_cons, List.append_assoc]
    rw [C44_bytes w hw hw8 v (hl v (by simp))]
    simp only
    rw [ih (fun v hv => hl v (by simp [hv]))]

theorem set_last {o : List (Nat × Nat)} {k v : Nat} (h : ∀ e ∈ o, e.1 < k) : SMap.set o k v = o ++ [(k, v)] := by
  induction o with
  | nil => rfl
  | cons e o ih =>
    obtain ⟨a, w⟩ := e
    have h1 : a < k := h (a, w) (by simp)
    rw [SMap.set, if_neg (by omega), if_neg (by omega), ih (fun e he => h e (by simp [he])), List.cons_append]

theorem get_last {o : List (Nat × Nat)} {k : Nat} (h : ∀ e ∈ o, e.1 < k) : SMap.get o k = none := by
  induction o with
  | nil => rfl
  | cons e o ih =>
    obtain ⟨a, w⟩ := e
    have h1 : a < k := h (a, w) (by simp)
    rw [SMap.get, if_neg (by omega), ih (fun e he => h e (by simp [he]))]

theorem readOverflow_spec (l : List (Nat × Nat)) (o : List (Nat × Nat)) (max : Nat)
    (hs : SMap.Sorted (o ++ l)) (hl : ∀ e ∈ l, e.1 < 256 ^ 8 ∧ e.2 < 256 ^ 8) (rest : List Nat) :
    readOverflow true l.length (l.flatMap (fun e => writeBytes 8 e.1 ++ writeBytes 8 e.2) ++ rest) o max =
      (o ++ l, l.foldl (fun m e => if e.1 > m then e.1 else m) max) := by
  induction l generalizing o max with
  | nil => simp [readOverflow]
  | cons e l ih =>
    obtain ⟨k, v⟩ := e
    have hk := hl (k, v) (by simp)
    rw [List.length_cons, readOverflow, List.flatMap_cons, List.append_assoc, List.append_assoc]
    rw [C44_bytes 8 (by omega) le_rfl k hk.1]
    simp only
    rw [C44_bytes 8 (by omega) le_rfl v hk.2]
    simp only
    have hlt : ∀ e ∈ o, e.1 < k := by
      intro e he
      have := (List.pairwise_append.1 hs).2.2 e he (k, v) (by simp)
      exact this
    rw [get_last hlt]
    simp only
    rw [set_last hlt, ih (o ++ [(k, v)]) _ (by simpa using hs) (fun e he => hl e (by simp [he]))]
    simp

theorem foldl_max (l : List (Nat × Nat)) (m : Nat) :
    m ≤ l.foldl (fun m e => if e.1 > m then e.1 else m) m ∧
    (∀ e ∈ l, e.1 ≤ l.foldl (fun m e => if e.1 > m then e.1 else m) m) ∧
    (l.foldl (fun m e => if e.1 > m then e.1 else m) m = m ∨
      ∃ e ∈ l, e.1 = l.foldl (fun m e => if e.1 > m then e.1 else m) m) := by
  induction l generalizing m with
  | nil => simp
  | cons a l ih =>
    rw [List.foldl_cons]
    obtain ⟨h1, h2, h3⟩ := ih (if a.1 > m then a.1 else m)
    have hm : m ≤ (if a.1 > m then a.1 else m) ∧ a.1 ≤ (if a.1 > m then a.1 else m) := by split <;> omega
    refine ⟨by omega, ?_, ?_⟩
    · intro e he
      rcases List.mem_cons.1 he with rfl | he
      · omega
      · exact h2 e he
    · rcases h3 with h3 | ⟨e, he, h3⟩
      · by_cases c : a.1 > m
        · rw [if_pos c] at h3 ⊢; exact .inr ⟨a, by simp, h3.symm⟩
        · rw [if_neg c] at h3 ⊢; exact .inl h3
      · exact .inr ⟨e, by simp [he], h3⟩

/-- reading back gives the same counters, overflow table and maximum -/
theorem readFrom_writeTo {w : Nat} (hw : 0 < w) (hw8 : w ≤ 8) {t : Tally} {f : Nat → Nat} {S : Nat}
    (h : Rep (256 ^ w - 1) t f S) (hp : Pos t f) (hmax : t.max < 2 ^ 64)
    (hn : t.count.length < 2 ^ 32) (ho : t.overflow.length < 2 ^ 32) (cap : Nat) (rest : List Nat) :
    readFrom true w cap (writeTo w t ++ rest) = ⟨cap, t.count, t.overflow, t.max, 0⟩ := by
  have hM : 0 < 256 ^ w - 1 := by
    have : 256 ^ 1 ≤ 256 ^ w := Nat.pow_le_pow_right (by omega) hw
    omega
  have hfp : ∀ e ∈ t.overflow, 0 < f e.1 ∧ e.2 = f e.1 := by
    intro e he
    have hg := (SMap.get_mem h.sorted (k := e.1) (v := e.2)).2 he
    have hv := hp.opos _ _ hg
    by_cases c : e.1 < t.count.length
    · by_cases c2 : t.count.getD e.1 0 = 256 ^ w - 1
      · have := (h.hi _ c c2).1
        rw [hg] at this
        have := Option.some.inj this
        omega
      · rw [(h.lo _ c c2).2] at hg; exact absurd hg (by simp)
    · by_cases c2 : e.1 < t.cap
      · rw [(h.mid _ (by omega) c2).2] at hg; exact absurd hg (by simp)
      · rcases h.big e.1 (by omega) with g | g
        · rw [hg] at g
          have := Option.some.inj g
          omega
        · rw [g.1] at hg; exact absurd hg (by simp)
  have hkey : ∀ e ∈ t.overflow, e.1 ≤ t.max := by
    intro e he
    by_contra hc
    have := h.max e.1 (by omega)
    have := (hfp e he).1
    omega
  have e8 : (256:Nat) ^ 8 = 2 ^ 64 := by norm_num
  have hov : ∀ e ∈ t.overflow, e.1 < 256 ^ 8 ∧ e.2 < 256 ^ 8 := by
    intro e he
    have h1 := hkey e he
    have h2 := (hfp e he).2
    have h3 := h.fle e.1
    have h4 := h.bound
    rw [e8]
    omega
  have hcnt : ∀ v ∈ t.count, v < 256 ^ w := by
    intro v hv
    obtain ⟨i, hi, rfl⟩ := List.mem_iff_getElem.1 hv
    have := h.le i hi
    rw [List.getD_eq_getElem _ _ hi] at this
    omega
  have e4 : (256:Nat) ^ 4 = 2 ^ 32 := by norm_num
  rw [readFrom, writeTo]
  rw [Nat.mod_eq_of_lt (show t.count.length < 4294967296 from hn), Nat.mod_eq_of_lt (show t.overflow.length < 4294967296 from ho)]
  simp only [List.append_assoc]
  rw [C44_bytes 4 (by omega) (by omega) _ (by rw [e4]; exact hn)]
  simp only
  rw [C44_bytes 4 (by omega) (by omega) _ (by rw [e4]; exact ho)]
  simp only
  rw [readCounts_spec w hw hw8 _ hcnt]
  simp only
  rw [readOverflow_spec _ [] _ (by simpa using h.sorted) hov]
  simp only [List.nil_append]
  congr 1
  obtain ⟨h1, h2, h3⟩ := foldl_max t.overflow (t.count.length - 1)
  have hlm := h.lmax
  have hle : t.overflow.foldl (fun m e => if e.1 > m then e.1 else m) (t.count.length - 1) ≤ t.max := by
    rcases h3 with h3 | ⟨e, he, h3⟩
    · omega
    · rw [← h3]; exact hkey e he
  rcases hp.mpos with g | ⟨g, -⟩
  · by_cases c : t.max < t.count.length
    · omega
    · obtain ⟨v, hv⟩ := (over_iff h hp (by omega)).1 g
      have := h2 _ hv
      simp only at this
      omega
  · omega

/-- A table dumped with `write_to` and recovered from the file has the same multiplicities and the
same size, with counters of any width `w` (in bytes). -/
theorem C44_dump {w : Nat} (hw : 0 < w) (hw8 : w ≤ 8) (cap cap' : Nat) (h : List Op) (hS : all h < 2 ^ 64)
    (hp : ∀ o ∈ h, 0 < o.mul) (hi : ∀ o ∈ h, o.idx < 2 ^ 64)
    (hn : (run (256 ^ w - 1) cap h).count.length < 2 ^ 32) (ho : (run (256 ^ w - 1) cap h).overflow.length < 2 ^ 32)
    (rest : List Nat) (i : Nat) :
    multiplicity (256 ^ w - 1) (readFrom true w cap' (writeTo w (run (256 ^ w - 1) cap h) ++ rest)) i = .ok (occ h i) ∧
    size (readFrom true w cap' (writeTo w (run (256 ^ w - 1) cap h) ++ rest)) = size (run (256 ^ w - 1) cap h) := by
  have hM : 1 < 256 ^ w - 1 := by
    have : 256 ^ 1 ≤ 256 ^ w := Nat.pow_le_pow_right (by omega) hw
    omega
  have hr := run_rep hM cap h hS
  have hps := run_pos hM cap h hS hp
  have hmax : (run (256 ^ w - 1) cap h).max < 2 ^ 64 := by
    rcases hps.mpos with g | ⟨g, -⟩
    · obtain ⟨o, ho, e⟩ := occ_pos_mem g
      rw [← e]; exact hi o ho
    · rw [g]; decide
  rw [readFrom_writeTo hw hw8 hr hps hmax hn ho cap' rest]
  exact ⟨multiplicity_eq hr i, rfl⟩

example : (0:Nat) < 1 ∧ 1 ≤ 8 ∧ all sample < 2 ^ 64 ∧ (∀ o ∈ sample, 0 < o.mul) ∧ (∀ o ∈ sample, o.idx < 2 ^ 64) ∧
    (run (256 ^ 1 - 1) 4 sample).count.length < 2 ^ 32 ∧ (run (256 ^ 1 - 1) 4 sample).overflow.length = 4 := by
  decide +kernel

/-- Finding F12: the sum is lost. -/
theorem C44_sum_false : sum (run (256 ^ 1 - 1) 4 sample) = 558 ∧
    sum (readFrom true 1 4 (writeTo 1 (run (256 ^ 1 - 1) 4 sample))) = 0 := by decide +kernel

/-! ### going on after recovery -/

/-- the total has no influence on the rest -/
theorem tallyN_total (M : Nat) (t : Tally) (x i m : Nat) :
    (tallyN M { t with total := x } i m).1 = { (tallyN M t i m).1 with total := u64 (x + m) } := by
  rw [tallyN, tallyN]
  simp only
  have e1 := max_if { t with total := u64 (x + m) } i
  have e2 := max_if { t with total := u64 (t.total + m) } i
  simp only at e1 e2
  rw [e1, e2]
  simp only
  cases SMap.get t.overflow i <;> split_ifs <;> rfl

theorem tally1_total (M : Nat) (t : Tally) (x i : Nat) :
    (tally1 M { t with total := x } i).1 = { (tally1 M t i).1 with total := u64 (x + 1) } := by
  rw [tally1, tally1]
  simp only
  have e1 := max_if { t with total := u64 (x + 1) } i
  have e2 := max_if { t with total := u64 (t.total + 1) } i
  simp only at e1 e2
  rw [e1, e2]
  simp only
  cases SMap.get t.overflow i <;> split_ifs <;> rfl

theorem step_total (M : Nat) (t : Tally) (x : Nat) (o : Op) :
    (step M { t with total := x } o).1 = { (step M t o).1 with total := u64 (x + o.mul) } := by
  cases o with
  | one i => exact tally1_total M t x i
  | many i m => exact tallyN_total M t x i m

/-- the table may be used with a smaller capacity, down to what is in use -/
theorem Rep.shrink {M : Nat} {t : Tally} {f : Nat → Nat} {S : Nat} (h : Rep M t f S) :
    Rep M { t with cap := t.count.length } f S where
  len := le_rfl
  le := h.le
  sorted := h.sorted
  lo := h.lo
  hi := h.hi
  mid := by intro i h1 h2; simp only at h1 h2; omega
  big := by
    intro i hi
    by_cases c : i < t.cap
    · exact .inr ⟨(h.mid i hi c).2, (h.mid i hi c).1⟩
    · exact h.big i (by omega)
  total := h.total
  bound := h.bound
  fle := h.fle
  max := h.max
  lmax := h.lmax

/-- Counting can go on after recovery from a file (recovery reserves exactly the counters read, as
`resize` on an empty vector does): the multiplicities are then those of both histories together. -/
theorem C44_resume {w : Nat} (hw : 0 < w) (hw8 : w ≤ 8) (cap : Nat) (h h' : List Op) (hS : all h + all h' < 2 ^ 64)
    (hp : ∀ o ∈ h, 0 < o.mul) (hi : ∀ o ∈ h, o.idx < 2 ^ 64)
    (hn : (run (256 ^ w - 1) cap h).count.length < 2 ^ 32) (ho : (run (256 ^ w - 1) cap h).overflow.length < 2 ^ 32)
    (i : Nat) :
    multiplicity (256 ^ w - 1)
      (h'.foldl (fun t o => (step (256 ^ w - 1) t o).1)
        (readFrom true w (run (256 ^ w - 1) cap h).count.length (writeTo w (run (256 ^ w - 1) cap h)))) i =
      .ok (occ (h ++ h') i) := by
  have hM : 1 < 256 ^ w - 1 := by
    have : 256 ^ 1 ≤ 256 ^ w := Nat.pow_le_pow_right (by omega) hw
    omega
  have hr := run_rep hM cap h (by omega)
  have hps := run_pos hM cap h (by omega) hp
  have hmax : (run (256 ^ w - 1) cap h).max < 2 ^ 64 := by
    rcases hps.mpos with g | ⟨g, -⟩
    · obtain ⟨o, ho, e⟩ := occ_pos_mem g
      rw [← e]; exact hi o ho
    · rw [g]; decide
  have hrw := readFrom_writeTo hw hw8 hr hps hmax hn ho (run (256 ^ w - 1) cap h).count.length []
  rw [List.append_nil] at hrw
  rw [hrw]
  have key : ∃ t x, h'.foldl (fun t o => (step (256 ^ w - 1) t o).1)
      ⟨(run (256 ^ w - 1) cap h).count.length, (run (256 ^ w - 1) cap h).count, (run (256 ^ w - 1) cap h).overflow,
        (run (256 ^ w - 1) cap h).max, 0⟩ = { t with total := x } ∧
      Rep (256 ^ w - 1) t (occ (h ++ h')) (all h + all h') := by
    clear hrw hmax hn ho hps
    induction h' using List.reverseRecOn with
    | nil =>
      refine ⟨{ run (256 ^ w - 1) cap h with cap := (run (256 ^ w - 1) cap h).count.length }, 0, rfl, ?_⟩
      rw [List.append_nil]
      exact hr.shrink
    | append_singleton h' o ih =>
      rw [all_snoc, ← Nat.add_assoc] at hS
      obtain ⟨t, x, h1, h2⟩ := ih (by omega)
      refine ⟨(step (256 ^ w - 1) t o).1, u64 (x + o.mul), ?_, ?_⟩
      · rw [List.foldl_append, h1]
        exact step_total _ t x o
      · rw [← List.append_assoc, occ_snoc, all_snoc, ← Nat.add_assoc, step_eq hM h2 o (by omega)]
        exact (tallyN_spec (by omega) h2 _ _ (by omega)).1
  obtain ⟨t, x, h1, h2⟩ := key
  rw [h1]
  exact multiplicity_eq h2 i

example : all sample + all [.one 5, .many 9 1000] < 2 ^ 64 ∧ (∀ o ∈ sample, 0 < o.mul) ∧ (∀ o ∈ sample, o.idx < 2 ^ 64) := by
  decide +kernel

end Verif.Tally
