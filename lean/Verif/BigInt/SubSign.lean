import Verif.BigInt.PropsBasic
/-
The sign of a difference computed by `sub_from`: although the value can be wrong (finding F1),
the sign is not.
-/
namespace Verif.BigInt

theorem subFromBorrow_sign : ∀ {l : Digits} {bw : Bool}, WF l → (2 ≤ l.length → Norm l) →
    (bw = true → l ≠ [𝐁 - 1]) →
    WF (subFromBorrow l bw).1 ∧ (sval (subFromBorrow l bw).1 < 0 ↔ 0 ≤ sval l)
  | [], _, h, _, _ => absurd rfl h.1
  | [t], false, h, _, _ => by
    have ht := wf_single.1 h
    have e : subFromBorrow [t] false = ([dnot t], .shrink) := by simp [subFromBorrow]
    rw [e]
    refine ⟨wf_single.2 (dnot_lt _), ?_⟩
    simp only [sval_single]; unfold dnot; split <;> split <;> omega
  | [t], true, h, _, hb => by
    have ht := wf_single.1 h
    have hb : t ≠ 𝐁 - 1 := fun e => hb rfl (by rw [e])
    have hlt : ddec (dnot t) < 𝐁 := by unfold ddec; omega
    by_cases hc : ddec (dnot t) = dnot 𝐇
    · have e : subFromBorrow [t] true = ([ddec (dnot t), 𝐁 - 1], .keep) := by
        simp [subFromBorrow, hc]
      rw [e]
      refine ⟨(wf_cons (by simp)).2 ⟨hlt, wf_single.2 (by norm_num)⟩, ?_⟩
      rw [sval_cons2, sval_single, sval_single, hc]; unfold ddec dnot at *; simp; split <;> omega
    · have e : subFromBorrow [t] true = ([ddec (dnot t)], .shrink) := by
        simp [subFromBorrow, hc]
      rw [e]
      refine ⟨wf_single.2 hlt, ?_⟩
      simp only [sval_single]; unfold ddec dnot at *; split <;> split <;> omega
  | x :: y :: l, bw, h, hn, _ => by
    have w := (wf_cons (List.cons_ne_nil _ _)).1 h
    have hN := hn (by simp)
    have hlt : (if bw then ddec (dnot x) else dnot x) < 𝐁 := by
      split
      · unfold ddec; omega
      · exact dnot_lt _
    have ih := subFromBorrow_sign (l := y :: l)
      (bw := bw && ((if bw then ddec (dnot x) else dnot x) == 0)) w.2
      (fun _ => Norm.tail (by simp) hN) (by
        intro hb he
        simp only [Bool.and_eq_true, beq_iff_eq] at hb
        rw [hb.1, if_pos rfl] at hb
        have hx : x = 𝐁 - 2 := by have := w.1; have := hb.2; unfold ddec dnot at this; omega
        rw [he] at hN
        exact (norm_pair.1 hN).2.2.2 ⟨rfl, by omega⟩)
    have e : subFromBorrow (x :: y :: l) bw = consPost (if bw then ddec (dnot x) else dnot x)
        (subFromBorrow (y :: l) (bw && ((if bw then ddec (dnot x) else dnot x) == 0))) := by
      rw [subFromBorrow]
    rw [e]
    have hx := w.1
    generalize (if bw then ddec (dnot x) else dnot x) = x' at *
    generalize subFromBorrow (y :: l) _ = r at *
    refine ⟨(wf_cons ih.1.1).2 ⟨hlt, ih.1⟩, ?_⟩
    simp only [consPost]
    rw [sval_cons ih.1.1, sval_cons2]
    have := ih.2
    omega

theorem subFromTop_sign {d : Digits} {xt c : Nat} (hd : Norm d) (hx : xt < 𝐁) (hc : c ≤ 1)
    (hs : ¬ SubFromSafe d [xt]) :
    WF (subFromTop d xt c).1 ∧ (0 ≤ sval d → sval (subFromTop d xt c).1 < 0) ∧
      (sval d < 0 → 0 < sval (subFromTop d xt c).1) := by
  simp only [SubFromSafe, back_single, not_or, not_lt, not_le] at hs
  obtain ⟨hs1, hs2, hs3⟩ := hs
  match d, hd with
  | [], h => simp at hs2
  | [a], h => simp at hs2
  | [a, b], h => simp at hs2
  | a :: b :: b' :: l, h =>
    have w := (wf_cons (List.cons_ne_nil _ _)).1 h.wf
    have ha := w.1
    have hN : Norm (b :: b' :: l) := Norm.tail (by simp) h
    simp only [subFromTop]
    rw [if_neg (by omega)]
    split
    · next h0 =>
      obtain ⟨i1, i2, i3, i4⟩ := complNegLoop_spec (neg := false) h.wf
      refine ⟨i1, ?_, ?_⟩
      · intro hh; rw [i2]; simp; omega
      · intro hh; rw [i2]
        have n1 : sval (a :: b :: b' :: l) ≠ -1 := by
          have := (norm_iff_value (l.length + 1) h.wf (by simp)).1 h
          have hp : (1 : Int) ≤ 𝐁 ^ (l.length + 1) := one_le_pow₀ (by norm_num)
          omega
        simp; omega
    · next h0 =>
      generalize hbw : decide (dadd xt c ≤ dadd (dnot a) (dadd xt c)) = bw
      have ih := subFromBorrow_sign (l := b :: b' :: l) (bw := bw) w.2 (fun _ => hN)
        (by intro _ e; simp at e)
      have i2 := subFromBorrow_spec (l := b :: b' :: l) (bw := false) w.2 (.inl rfl)
      have hlt := dadd_lt (dnot a) (dadd xt c)
      refine ⟨(wf_cons ih.1.1).2 ⟨hlt, ih.1⟩, ?_⟩
      simp only [consPost]
      rw [sval_cons ih.1.1, sval_cons2]
      have i3 := ih.2
      cases bw
      · rw [i2.2.1]
        have n1 : sval (b :: b' :: l) ≠ -1 := by
          have := (norm_iff_value (l.length) hN.wf (by simp)).1 hN
          have hp : (1 : Int) ≤ 𝐁 ^ (l.length) := one_le_pow₀ (by norm_num)
          omega
        simp; omega
      · have := of_decide_eq_true hbw
        omega

theorem subFromLoop_sign : ∀ {d x : Digits} {c : Nat}, Norm d → WF x → c ≤ 1 →
    ¬ SubFromSafe d x →
    WF (subFromLoop d x c).1 ∧ (0 ≤ sval d → sval (subFromLoop d x c).1 < 0) ∧
      (sval d < 0 → 0 < sval (subFromLoop d x c).1)
  | d, [], c, _, hx, _, _ => absurd rfl hx.1
  | d, [xt], c, hd, hx, hc, hs => by
    rw [subFromLoop_single]; exact subFromTop_sign hd (wf_single.1 hx) hc hs
  | [], b :: b' :: x, c, hd, _, _, _ => absurd rfl hd.wf.1
  | [a], b :: b' :: x, c, hd, _, _, hs => absurd (.inr (.inl (by simp))) hs
  | a :: a' :: d, b :: b' :: x, c, hd, hx, hc, hs => by
    have wd := (wf_cons (List.cons_ne_nil _ _)).1 hd.wf
    have wx := (wf_cons (List.cons_ne_nil _ _)).1 hx
    have hs' : ¬ SubFromSafe (a' :: d) (b' :: x) := by
      intro hs'
      apply hs
      rcases hs' with hs | hs | hs
      · left; rwa [back_cons]
      · right; left; simpa using hs
      · right; right; simpa using hs
    have ha := wd.1
    rw [subFromLoop_cons]
    have key : ∀ (y c' : Nat), c' ≤ 1 → y < 𝐁 →
        let r := consPost y (subFromLoop (a' :: d) (b' :: x) c')
        WF r.1 ∧ (0 ≤ sval (a :: a' :: d) → sval r.1 < 0) ∧ (sval (a :: a' :: d) < 0 → 0 < sval r.1) := by
      intro y c' hc' hy
      obtain ⟨i1, i2, i3⟩ := subFromLoop_sign (c := c') (Norm.tail (by simp) hd) wx.2 hc' hs'
      refine ⟨(wf_cons i1.1).2 ⟨hy, i1⟩, ?_⟩
      simp only [consPost]
      rw [sval_cons i1.1, sval_cons2]
      omega
    by_cases h0 : dadd (dnot a) c = 0
    · simp only [h0, ne_eq, not_true_eq_false, if_false]
      exact key b c hc wx.1
    · simp only [h0, ne_eq, not_false_eq_true, if_true]
      exact key _ _ (by split <;> omega) (dadd_lt _ _)

theorem shorter_sign {d x : Digits} (hd : Norm d) (hx : Norm x) (hlt : d.length < x.length) :
    (0 ≤ sval x → sval d < sval x) ∧ (sval x < 0 → sval x < sval d) := by
  have h0 : d.length ≠ 0 := by simpa using hd.wf.1
  obtain ⟨n, hn⟩ : ∃ n, x.length = n + 2 := ⟨x.length - 2, by omega⟩
  obtain ⟨k, hk⟩ : ∃ k, d.length = k + 1 := ⟨d.length - 1, by omega⟩
  have r := (norm_iff_value n hx.wf hn).1 hx
  have s := sval_range k hd.wf hk
  have hp : (𝐇 : Int) * 𝐁 ^ k ≤ 𝐇 * 𝐁 ^ n := by
    apply mul_le_mul_of_nonneg_left _ (by norm_num)
    exact pow_le_pow_right₀ (by norm_num) (by omega)
  omega

theorem apply_sval {r : Digits × Post} (h : WF r.1) : WF (r.2.apply r.1) ∧ sval (r.2.apply r.1) = sval r.1 := by
  obtain ⟨l, p⟩ := r
  cases p
  all_goals simp only [Post.apply]
  all_goals first
    | exact h
    | exact ⟨h, rfl⟩
    | exact ⟨h, trivial⟩
    | exact ⟨(shrink_spec h).1.wf, (shrink_spec h).2⟩
    | exact ⟨(shrinkPos_spec h).1, (shrinkPos_spec h).2.1⟩
    | exact ⟨(shrinkNeg_spec h).1, (shrinkNeg_spec h).2.1⟩

/-- C05: the sign of a difference of two temporaries `std::move(a) - std::move(b)` is right, also
where its value is wrong (finding F1): it is negative just if `a < b`, and zero just if `a = b`. -/
theorem C05_minus_sign {d x : Digits} {a b : Int} (hd : Rep d a) (hx : Rep x b) :
    (isNegative (minusRR d x) = true ↔ a < b) ∧ (isZero (minusRR d x) = true ↔ a = b) := by
  by_cases hs : SubFromSafe x d
  · have hr : Rep (minusRR d x) (a - b) := by
      unfold minusRR
      split
      · next hl =>
        have h1 := rep_iff.1 hd; have h2 := rep_iff.1 hx
        rw [rep_iff]
        unfold subtractFrom
        rw [if_neg (by omega)]
        have := subFrom_spec h2.1.wf h1.1 (by omega) hs
        rw [h1.2, h2.2] at this; exact this
      · exact C04_subAssign hd hx
    have := C02_sign hr
    refine ⟨this.1.trans (by omega), this.2.1.trans (by omega)⟩
  · have hl : d.length + 1 < x.length := by
      by_contra h; exact hs (.inr (.inl (by omega)))
    obtain ⟨h1, rfl⟩ := rep_iff.1 hd
    obtain ⟨h2, rfl⟩ := rep_iff.1 hx
    have e : minusRR d x = (subFromLoop x d 1).2.apply (subFromLoop x d 1).1 := by
      unfold minusRR subtractFrom
      rw [if_pos (by omega), if_neg (by omega)]; rfl
    obtain ⟨i1, i2, i3⟩ := subFromLoop_sign (c := 1) h2 h1.wf (le_refl _) hs
    have ⟨a1, a2⟩ := apply_sval i1
    rw [e, isNegative_iff a1]
    have hz : isZero ((subFromLoop x d 1).2.apply (subFromLoop x d 1).1) = true →
        sval ((subFromLoop x d 1).2.apply (subFromLoop x d 1).1) = 0 := by
      intro h
      have : (subFromLoop x d 1).2.apply (subFromLoop x d 1).1 = [0] := by simpa [isZero] using h
      rw [this]; rfl
    have k := shorter_sign h1 h2 (by omega)
    rw [a2] at hz ⊢
    refine ⟨by omega, ⟨fun h => ?_, fun h => ?_⟩⟩
    · have := hz h; omega
    · omega

/-- a case where the value is wrong but the sign right -/
example : Rep [𝐁 - 2] (-2) ∧ Rep [𝐁 - 1, 𝐁 - 1, 0] (2 ^ 64 - 1) ∧ minusRR [𝐁 - 2] [𝐁 - 1, 𝐁 - 1, 0] = [𝐁 - 1] :=
  ⟨rep_of_check (by decide), rep_of_check (by decide), by decide⟩

end Verif.BigInt
