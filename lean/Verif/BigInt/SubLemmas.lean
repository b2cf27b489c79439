import Verif.BigInt.AddLemmas
/-
Helper lemmas: subtraction, reverse subtraction, addition of a digit, `big_int`
comparison and conversion.
-/
namespace Verif.BigInt

theorem sval_single {t : Nat} : sval [t] = if t < 𝐇 then (t : Int) else (t : Int) - 𝐁 := rfl

theorem dnot_dnot {x : Nat} (h : x < 𝐁) : dnot (dnot x) = x := by unfold dnot; omega

theorem xor_dnot_ge {a b : Nat} (ha : a < 𝐁) (hb : b < 𝐁) : 𝐇 ≤ a ^^^ dnot b ↔ a ^^^ b < 𝐇 := by
  rw [xor_ge ha (dnot_lt _), xor_lt ha hb]; unfold dnot; omega

theorem subTop_eq {d : Digits} {xt c : Nat} (hd : WF d) (hx : xt < 𝐁) :
    subTop d xt c = addTop d (dnot xt) c := by
  match d, hd with
  | [], h => exact absurd rfl h.1
  | [a], h =>
    have ha := wf_single.1 h
    simp only [subTop, addTop, xor_dnot_ge ha hx, xor_dnot_ge (dadd_lt a (dadd (dnot xt) c)) hx]
  | a :: b :: l, h =>
    have : 𝐇 ≤ xt ↔ dnot xt < 𝐇 := by unfold dnot; omega
    simp only [subTop, addTop, this]

theorem subLoop_cons {a b b' : Nat} {d x : Digits} {c : Nat} :
    subLoop (a :: d) (b :: b' :: x) c =
      if dadd (dnot b) c ≠ 0 then
        consPost (dadd a (dadd (dnot b) c))
          (subLoop d (b' :: x) (if dadd a (dadd (dnot b) c) < dadd (dnot b) c then 1 else 0))
      else consPost a (subLoop d (b' :: x) c) := by
  rw [subLoop.eq_def]

theorem subLoop_single {d : Digits} {xt c : Nat} : subLoop d [xt] c = subTop d xt c := by
  rw [subLoop.eq_def]

/-- subtraction runs the addition loop on the complemented digits -/
theorem subLoop_eq : ∀ {d x : Digits} {c : Nat}, WF d → WF x → x.length ≤ d.length →
    subLoop d x c = addLoop d (cmap x) c
  | d, [], c, _, hx, _ => absurd rfl hx.1
  | d, [xt], c, hd, hx, _ => by
    rw [subLoop_single, cmap_cons, cmap_nil, addLoop_single, subTop_eq hd (wf_single.1 hx)]
  | [], b :: b' :: x, c, hd, _, _ => absurd rfl hd.1
  | [a], b :: b' :: x, c, hd, _, hl => by simp at hl
  | a :: a' :: d, b :: b' :: x, c, hd, hx, hl => by
    have wd := (wf_cons (List.cons_ne_nil _ _)).1 hd
    have wx := (wf_cons (List.cons_ne_nil _ _)).1 hx
    have ih := fun c => subLoop_eq (c := c) wd.2 wx.2 (by simpa using hl)
    rw [subLoop_cons, cmap_cons, cmap_cons, addLoop_cons]
    rw [cmap_cons] at ih
    simp only [ih]

theorem sub_spec {d x : Digits} (hd : WF d) (hx : Norm x) (hl : x.length ≤ d.length)
    (h1 : x.length < d.length → Norm d) :
    Norm (sub d x) ∧ sval (sub d x) = sval d - sval x := by
  unfold sub
  rw [subLoop_eq hd hx.wf hl]
  have := addLoop_norm (c := 1) hd (cmap_wf hx.wf) (le_refl _) (by simpa using hl)
    (by simpa using h1) (fun _ => Or.inr (cmap_norm hx))
  refine ⟨this.1, this.2.trans ?_⟩
  rw [cmap_sval hx.wf]; push_cast; omega

theorem add_spec {d x : Digits} (hd : WF d) (hx : Norm x) (hl : x.length ≤ d.length)
    (h1 : x.length < d.length → Norm d) :
    Norm (add d x) ∧ sval (add d x) = sval d + sval x := by
  unfold add
  have := addLoop_norm (c := 0) hd hx.wf (by omega) hl h1 (fun _ => Or.inr hx)
  refine ⟨this.1, this.2.trans ?_⟩
  simp

theorem addAssign_spec {d x : Digits} (hd : Norm d) (hx : Norm x) :
    Norm (addAssign d x) ∧ sval (addAssign d x) = sval d + sval x := by
  unfold addAssign
  split
  · next h =>
    obtain ⟨s1, s2, s3, -⟩ := signExtend_spec hd.wf x.length
    have s3 := s3 (by omega)
    have := add_spec s1 hx (by omega) (by omega)
    rw [s2] at this; exact this
  · next h => exact add_spec hd.wf hx (by omega) (fun _ => hd)

theorem addAssignMove_spec {d x : Digits} (hd : Norm d) (hx : Norm x) :
    Norm (addAssignMove d x) ∧ sval (addAssignMove d x) = sval d + sval x := by
  unfold addAssignMove
  split
  · next h =>
    have := add_spec hx.wf hd (by omega) (fun _ => hx)
    rw [add_comm (sval d)]; exact this
  · next h => exact add_spec hd.wf hx (by omega) (fun _ => hd)

theorem subAssign_spec {d x : Digits} (hd : Norm d) (hx : Norm x) :
    Norm (subAssign d x) ∧ sval (subAssign d x) = sval d - sval x := by
  unfold subAssign
  split
  · next h =>
    obtain ⟨s1, s2, s3, -⟩ := signExtend_spec hd.wf x.length
    have s3 := s3 (by omega)
    have := sub_spec s1 hx (by omega) (by omega)
    rw [s2] at this; exact this
  · next h => exact sub_spec hd.wf hx (by omega) (fun _ => hd)

theorem addDigit_eq {d : Digits} {x : Nat} (hd : WF d) (hx : x < 𝐁) :
    addDigit d x = (addTop d x 0).2.apply (addTop d x 0).1 := by
  have e : dadd x 0 = x := by unfold dadd; omega
  match d, hd with
  | [], h => exact absurd rfl h.1
  | [a], h =>
    have ha := wf_single.1 h
    have x1 := xor_ge ha hx
    have x2 := xor_ge (dadd_lt a x) hx
    simp only [addDigit, addTop, e]
    split
    · simp [Post.apply, shrink]
    · next h1 =>
      split
      · next h2 =>
        have h2' := x2.1 h2
        simp only [Post.apply]
        by_cases hh : x < 𝐇
        · have : 𝐇 ≤ dadd a x := by omega
          simp [hh, this]
        · have : ¬ 𝐇 ≤ dadd a x := by omega
          simp [hh, this]
      · rfl
  | a :: b :: l, h =>
    simp only [addDigit, addTop, e]
    split
    · split <;> rfl
    · next h1 =>
      have : x ≠ 0 := by omega
      simp only [this, ne_eq, not_false_eq_true, if_true]
      split <;> rfl

theorem addDigit_spec {d : Digits} {x : Nat} (hd : Norm d) (hx : x < 𝐁) :
    Norm (addDigit d x) ∧ sval (addDigit d x) = sval d + sval [x] := by
  rw [addDigit_eq hd.wf hx, ← addLoop_single]
  have hl : ([x] : Digits).length ≤ d.length := by
    have : d.length ≠ 0 := by simpa using hd.wf.1
    simp; omega
  have := addLoop_norm (c := 0) hd.wf (wf_single.2 hx) (by omega) hl (fun _ => hd) (fun _ => .inl hd)
  refine ⟨this.1, this.2.trans ?_⟩
  simp

theorem subDigit_spec {d : Digits} {x : Nat} (hd : Norm d) (hx : x < 𝐁) :
    Norm (subDigit d x) ∧ sval (subDigit d x) = sval d - sval [x] := by
  unfold subDigit
  split
  · next h =>
    have hx' : dneg x < 𝐁 := by unfold dneg; omega
    have := addDigit_spec hd hx'
    refine ⟨this.1, this.2.trans ?_⟩
    simp only [sval_single]; unfold dneg; split <;> split <;> omega
  · next h =>
    obtain rfl : x = 𝐇 := by omega
    have := addDigit_spec (carry_norm hd) (dnot_lt 𝐇)
    refine ⟨this.1, this.2.trans ?_⟩
    rw [(carry_spec hd.wf).2]; simp only [sval_single]; unfold dnot; norm_num; omega

/-! ### reverse subtraction -/

/-- Where the loop of the last branch of `sub_from` goes right: no borrow to
propagate, or only the top digit left, or a next digit that neither needs nor
(wrongly) triggers propagation. -/
def BorrowSafe (l : Digits) (bw : Bool) : Prop :=
  bw = false ∨ l.length = 1 ∨ l.headD 0 < 𝐁 - 2

theorem subFromBorrow_false : ∀ {l : Digits}, (∀ x ∈ l, x < 𝐁) →
    subFromBorrow l false = complNegLoop l false
  | [], _ => rfl
  | [t], h => by
    have : dadd (dnot t) 0 = dnot t := by unfold dadd dnot; omega
    simp [subFromBorrow, complNegLoop, this]
  | x :: y :: l, h => by
    have : dadd (dnot x) 0 = dnot x := by unfold dadd dnot; omega
    have ih := subFromBorrow_false (l := y :: l) (fun z hz => h z (by simp [hz]))
    simp [subFromBorrow, complNegLoop, this, ih]

theorem subFromBorrow_spec {l : Digits} {bw : Bool} (h : WF l) (hs : BorrowSafe l bw) :
    WF (subFromBorrow l bw).1 ∧
    sval (subFromBorrow l bw).1 = -1 - sval l - (if bw then 1 else 0) ∧
    Good (subFromBorrow l bw) ∧
    ((subFromBorrow l bw).2 = .shrink ∨ 2 ≤ (subFromBorrow l bw).1.length) := by
  cases bw
  · rw [subFromBorrow_false h.2]
    have := complNegLoop_spec (neg := false) h
    simpa using this
  · match l, h, hs with
    | [], h, _ => exact absurd rfl h.1
    | [t], h, _ =>
      have ht := wf_single.1 h
      have hlt : ddec (dnot t) < 𝐁 := by unfold ddec; omega
      by_cases hc : ddec (dnot t) = dnot 𝐇
      · have e : subFromBorrow [t] true = ([ddec (dnot t), 𝐁 - 1], .keep) := by
          simp [subFromBorrow, hc]
        rw [e]
        refine ⟨(wf_cons (by simp)).2 ⟨hlt, wf_single.2 (by norm_num)⟩, ?_, ?_, by simp⟩
        · rw [sval_cons2, sval_single, sval_single, hc]; unfold ddec dnot at *; simp; split <;> omega
        · simp only [Good, posRed_pair, negRed_pair]; rw [hc]; unfold dnot; omega
      · have e : subFromBorrow [t] true = ([ddec (dnot t)], .shrink) := by
          simp [subFromBorrow, hc]
        rw [e]
        refine ⟨wf_single.2 hlt, ?_, trivial, by simp⟩
        rw [sval_single, sval_single]; unfold ddec dnot at *; simp; split <;> split <;> omega
    | x :: y :: l, h, hs =>
      have w := (wf_cons (List.cons_ne_nil _ _)).1 h
      have hx : x < 𝐁 - 2 := by
        rcases hs with hs | hs | hs
        · simp at hs
        · simp at hs
        · simpa using hs
      have h0 : (ddec (dnot x) == 0) = false := by
        rw [beq_eq_false_iff_ne]; unfold ddec dnot; omega
      have e : subFromBorrow (x :: y :: l) true
          = consPost (ddec (dnot x)) (complNegLoop (y :: l) false) := by
        rw [← subFromBorrow_false w.2.2]; simp [subFromBorrow, h0]
      rw [e]
      obtain ⟨i1, i2, i3, i4⟩ := complNegLoop_spec (neg := false) w.2
      have hlt : ddec (dnot x) < 𝐁 := by unfold ddec; omega
      refine ⟨(wf_cons i1.1).2 ⟨hlt, i1⟩, ?_, ?_, ?_⟩
      · simp only [consPost]
        rw [sval_cons i1.1, i2, sval_cons2]; unfold ddec dnot; simp; omega
      · rcases i4 with i4 | i4
        · match hr : complNegLoop (y :: l) false, i4 with
          | (r, p), i4 => simp only at i4; subst i4; simp [consPost, Good]
        · exact i3.cons i4
      · rcases i4 with i4 | i4
        · left; simp [consPost, i4]
        · right; simp [consPost]; omega

theorem subFromLoop_cons {a b b' : Nat} {d x : Digits} {c : Nat} :
    subFromLoop (a :: d) (b :: b' :: x) c =
      if dadd (dnot a) c ≠ 0 then
        consPost (dadd b (dadd (dnot a) c))
          (subFromLoop d (b' :: x) (if dadd b (dadd (dnot a) c) < dadd (dnot a) c then 1 else 0))
      else consPost b (subFromLoop d (b' :: x) c) := by
  rw [subFromLoop.eq_def]

theorem subFromLoop_single {d : Digits} {xt c : Nat} : subFromLoop d [xt] c = subFromTop d xt c := by
  rw [subFromLoop.eq_def]

/-- The part of `d` above the length of `x` does not make the last branch of
`sub_from` propagate a borrow wrongly. -/
def SubFromSafe (d x : Digits) : Prop :=
  back x < 𝐇 ∨ d.length ≤ x.length + 1 ∨ (d.drop x.length).headD 0 < 𝐁 - 2

theorem subFromTop_spec {d : Digits} {xt c : Nat} (hd : WF d) (hx : xt < 𝐁) (hc : c ≤ 1)
    (hs : SubFromSafe d [xt]) :
    WF (subFromTop d xt c).1 ∧
    sval (subFromTop d xt c).1 = sval [xt] - sval d - 1 + c ∧
    (1 < d.length → Good (subFromTop d xt c) ∧
      ((subFromTop d xt c).2 = .shrink ∨ 2 ≤ (subFromTop d xt c).1.length)) := by
  match d, hd with
  | [], h => exact absurd rfl h.1
  | [a], h =>
    have ha := wf_single.1 h
    have e : subFromTop [a] xt c = addTop [dnot a] xt c := by
      have e1 : dadd (dadd xt (dnot a)) c = dadd (dnot a) (dadd xt c) := by
        unfold dadd dnot; omega
      have e2 : (a ^^^ xt < 𝐇) ↔ 𝐇 ≤ dnot a ^^^ xt := by
        rw [Nat.xor_comm, Nat.xor_comm (dnot a), xor_dnot_ge hx ha]
      simp only [subFromTop, addTop, e1, e2]
    rw [e]
    have := addTop_spec (wf_single.2 (dnot_lt a)) hx hc
    refine ⟨this.1, ?_, by simp⟩
    rw [this.2]
    have := cmap_sval h; rw [cmap_cons, cmap_nil] at this; rw [this]; omega
  | a :: b :: l, h =>
    have w := (wf_cons (List.cons_ne_nil _ _)).1 h
    have ha := w.1
    simp only [subFromTop]
    split
    · next h1 =>
      obtain ⟨i1, i2, i3, i4⟩ :=
        complNegLoop_spec (neg := decide (dadd (dnot a) (dadd xt c) < dadd xt c)) w.2
      refine ⟨(wf_cons i1.1).2 ⟨dadd_lt _ _, i1⟩, ?_, fun _ => ⟨?_, ?_⟩⟩
      · simp only [consPost]
        rw [sval_cons i1.1, i2, sval_cons2, sval_single, if_pos h1]
        simp only [decide_eq_true_eq]
        unfold dadd dnot; split <;> omega
      · rcases i4 with i4 | i4
        · generalize complNegLoop (b :: l) _ = r at *
          match r, i4 with
          | (r, p), i4 => simp only at i4; subst i4; simp [consPost, Good]
        · exact i3.cons i4
      · rcases i4 with i4 | i4
        · left; simp [consPost, i4]
        · right; simp [consPost]; omega
    · next h1 =>
      split
      · next h0 =>
        obtain ⟨i1, i2, i3, i4⟩ := complNegLoop_spec (neg := false) h
        refine ⟨i1, ?_, fun _ => ⟨i3, i4⟩⟩
        rw [i2, sval_single, if_neg h1]; unfold dadd at h0; simp; omega
      · next h0 =>
        have hs' : BorrowSafe (b :: l) (decide (dadd xt c ≤ dadd (dnot a) (dadd xt c))) := by
          rcases hs with hs | hs | hs
          · simp at hs; omega
          · right; left; simp at hs ⊢; exact hs
          · right; right; simpa using hs
        obtain ⟨i1, i2, i3, i4⟩ := subFromBorrow_spec w.2 hs'
        refine ⟨(wf_cons i1.1).2 ⟨dadd_lt _ _, i1⟩, ?_, fun _ => ⟨?_, ?_⟩⟩
        · simp only [consPost]
          rw [sval_cons i1.1, i2, sval_cons2, sval_single, if_neg h1]
          simp only [decide_eq_true_eq]
          unfold dadd dnot at *; split <;> omega
        · rcases i4 with i4 | i4
          · generalize subFromBorrow (b :: l) _ = r at *
            match r, i4 with
            | (r, p), i4 => simp only at i4; subst i4; simp [consPost, Good]
          · exact i3.cons i4
        · rcases i4 with i4 | i4
          · left; simp [consPost, i4]
          · right; simp [consPost]; omega

/-- for arguments of equal length, `sub_from` runs the addition loop on the
complement of `*this` -/
theorem subFromLoop_eq : ∀ {d x : Digits} {c : Nat}, WF d → WF x → c ≤ 1 → x.length = d.length →
    ∃ (l : Digits) (p : Post), subFromLoop d x c = (l, p) ∧ addLoop (cmap d) x c = (l, p)
  | d, [], c, _, hx, _, _ => absurd rfl hx.1
  | [], [xt], c, hd, hx, hc, _ => absurd rfl hd.1
  | _ :: _ :: _, [xt], c, _, _, _, hl => by simp at hl
  | [a], [xt], c, hd, hx, hc, _ => by
    have ha := wf_single.1 hd
    have hxt := wf_single.1 hx
    have e : subFromTop [a] xt c = addTop [dnot a] xt c := by
      have e1 : dadd (dadd xt (dnot a)) c = dadd (dnot a) (dadd xt c) := by
        unfold dadd dnot; omega
      have e2 : (a ^^^ xt < 𝐇) ↔ 𝐇 ≤ dnot a ^^^ xt := by
        rw [Nat.xor_comm, Nat.xor_comm (dnot a), xor_dnot_ge hxt ha]
      simp only [subFromTop, addTop, e1, e2]
    exact ⟨_, _, by rw [subFromLoop_single, e], by rw [cmap_cons, cmap_nil, addLoop_single]⟩
  | [], b :: b' :: x, c, hd, _, _, _ => absurd rfl hd.1
  | [a], b :: b' :: x, c, hd, _, _, hl => by simp at hl
  | a :: a' :: d, b :: b' :: x, c, hd, hx, hc, hl => by
    have wd := (wf_cons (List.cons_ne_nil _ _)).1 hd
    have wx := (wf_cons (List.cons_ne_nil _ _)).1 hx
    suffices hh : subFromLoop (a :: a' :: d) (b :: b' :: x) c
        = addLoop (cmap (a :: a' :: d)) (b :: b' :: x) c from ⟨_, _, rfl, hh.symm⟩
    have hb := wx.1
    -- both versions produce the same digit and carry, only grouped differently
    have key : ∀ u v : Nat, u < 𝐁 → v < 𝐁 →
        (if dadd u c ≠ 0 then (dadd v (dadd u c), if dadd v (dadd u c) < dadd u c then 1 else 0)
          else (v, c)) =
        (if dadd v c ≠ 0 then (dadd u (dadd v c), if dadd u (dadd v c) < dadd v c then 1 else 0)
          else (u, c)) := by
      intro u v hu hv
      have uniq : ∀ p q : Nat × Nat, p.1 < 𝐁 → q.1 < 𝐁 → p.1 + 𝐁 * p.2 = q.1 + 𝐁 * q.2 →
          p = q := by
        intro p q h1 h2 h3
        exact Prod.ext (by omega) (by omega)
      have r1 := ripple hv hu hc
      have r2 := ripple hu hv hc
      apply uniq
      · split
        · exact dadd_lt _ _
        · exact hv
      · split
        · exact dadd_lt _ _
        · exact hu
      · have e1 : ∀ u v : Nat, v < 𝐁 → u < 𝐁 →
            (if dadd u c ≠ 0 then (dadd v (dadd u c), if dadd v (dadd u c) < dadd u c then 1 else 0)
              else (v, c)).1 + 𝐁 *
            (if dadd u c ≠ 0 then (dadd v (dadd u c), if dadd v (dadd u c) < dadd u c then 1 else 0)
              else (v, c)).2 = v + u + c := by
          intro u v hv hu
          have r := ripple hv hu hc
          split
          · next h => exact r.1 h
          · next h => exact r.2 (by simpa using h)
        rw [e1 u v hv hu, e1 v u hu hv]; omega
    have k := key (dnot a) b (dnot_lt a) hb
    have f : ∀ (p : Nat × Nat), p.2 ≤ 1 →
        consPost p.1 (subFromLoop (a' :: d) (b' :: x) p.2) =
        consPost p.1 (addLoop (cmap (a' :: d)) (b' :: x) p.2) := by
      intro p hp
      obtain ⟨l, q, h1, h2⟩ := subFromLoop_eq (c := p.2) wd.2 wx.2 hp (by simpa using hl)
      rw [h1, h2]
    rw [subFromLoop_cons, cmap_cons (x := a), addLoop_cons]
    have g1 : (if dadd (dnot a) c ≠ 0 then
        consPost (dadd b (dadd (dnot a) c))
          (subFromLoop (a' :: d) (b' :: x) (if dadd b (dadd (dnot a) c) < dadd (dnot a) c then 1 else 0))
      else consPost b (subFromLoop (a' :: d) (b' :: x) c)) =
      consPost (if dadd (dnot a) c ≠ 0 then (dadd b (dadd (dnot a) c), if dadd b (dadd (dnot a) c) < dadd (dnot a) c then 1 else 0)
          else (b, c)).1 (subFromLoop (a' :: d) (b' :: x) (if dadd (dnot a) c ≠ 0 then (dadd b (dadd (dnot a) c), if dadd b (dadd (dnot a) c) < dadd (dnot a) c then 1 else 0)
          else (b, c)).2) := by
      split <;> rfl
    have g2 : (if dadd b c ≠ 0 then
        consPost (dadd (dnot a) (dadd b c))
          (addLoop (cmap (a' :: d)) (b' :: x) (if dadd (dnot a) (dadd b c) < dadd b c then 1 else 0))
      else consPost (dnot a) (addLoop (cmap (a' :: d)) (b' :: x) c)) =
      consPost (if dadd b c ≠ 0 then (dadd (dnot a) (dadd b c), if dadd (dnot a) (dadd b c) < dadd b c then 1 else 0)
          else (dnot a, c)).1 (addLoop (cmap (a' :: d)) (b' :: x) (if dadd b c ≠ 0 then (dadd (dnot a) (dadd b c), if dadd (dnot a) (dadd b c) < dadd b c then 1 else 0)
          else (dnot a, c)).2) := by
      split <;> rfl
    rw [g1, g2, ← k, ← f]
    split
    · dsimp only; split <;> omega
    · exact hc

theorem subFromLoop_spec : ∀ {d x : Digits} {c : Nat}, WF d → WF x → c ≤ 1 → x.length < d.length →
    SubFromSafe d x →
    WF (subFromLoop d x c).1 ∧ sval (subFromLoop d x c).1 = sval x - sval d - 1 + c ∧
    Good (subFromLoop d x c) ∧
      ((subFromLoop d x c).2 = .shrink ∨ 2 ≤ (subFromLoop d x c).1.length)
  | d, [], c, _, hx, _, _, _ => absurd rfl hx.1
  | d, [xt], c, hd, hx, hc, hl, hs => by
    rw [subFromLoop_single]
    have := subFromTop_spec hd (wf_single.1 hx) hc hs
    exact ⟨this.1, this.2.1, this.2.2 (by simpa using hl)⟩
  | [], b :: b' :: x, c, hd, _, _, _, _ => absurd rfl hd.1
  | [a], b :: b' :: x, c, hd, _, _, hl, _ => by simp at hl
  | a :: a' :: d, b :: b' :: x, c, hd, hx, hc, hl, hs => by
    have wd := (wf_cons (List.cons_ne_nil _ _)).1 hd
    have wx := (wf_cons (List.cons_ne_nil _ _)).1 hx
    have hs' : SubFromSafe (a' :: d) (b' :: x) := by
      rcases hs with hs | hs | hs
      · left; rwa [back_cons] at hs
      · right; left; simpa using hs
      · right; right; simpa using hs
    have hr := ripple wx.1 (dnot_lt a) hc
    have ha := wd.1
    rw [subFromLoop_cons]
    have key : ∀ (y c' : Nat), c' ≤ 1 → y < 𝐁 → y + 𝐁 * c' = b + dnot a + c →
        let r := consPost y (subFromLoop (a' :: d) (b' :: x) c')
        WF r.1 ∧ sval r.1 = sval (b :: b' :: x) - sval (a :: a' :: d) - 1 + c ∧ Good r ∧
          (r.2 = .shrink ∨ 2 ≤ r.1.length) := by
      intro y c' hc' hy he
      obtain ⟨i1, i2, i3, i4⟩ := subFromLoop_spec (c := c') wd.2 wx.2 hc' (by simpa using hl) hs'
      refine ⟨(wf_cons i1.1).2 ⟨hy, i1⟩, ?_, ?_, ?_⟩
      · simp only [consPost]
        rw [sval_cons i1.1, i2, sval_cons2, sval_cons2]
        unfold dnot at he; omega
      · rcases i4 with i4 | i4
        · generalize subFromLoop (a' :: d) (b' :: x) c' = r at *
          match r, i4 with
          | (r, p), i4 => simp only at i4; subst i4; simp [consPost, Good]
        · exact i3.cons i4
      · rcases i4 with i4 | i4
        · left; simp [consPost, i4]
        · right; simp [consPost]; omega
    by_cases h0 : dadd (dnot a) c = 0
    · simp only [h0, ne_eq, not_true_eq_false, if_false]
      exact key b c hc wx.1 (hr.2 h0)
    · simp only [h0, ne_eq, not_false_eq_true, if_true]
      exact key _ _ (by split <;> omega) (dadd_lt _ _) (hr.1 h0)

theorem subFrom_spec {d x : Digits} (hd : WF d) (hx : Norm x) (hl : x.length ≤ d.length)
    (hs : SubFromSafe d x) :
    Norm (subFrom d x) ∧ sval (subFrom d x) = sval x - sval d := by
  unfold subFrom
  rcases Nat.lt_or_ge x.length d.length with h | h
  · obtain ⟨i1, i2, i3, -⟩ := subFromLoop_spec (c := 1) hd hx.wf (le_refl _) h hs
    have := i3.apply i1
    refine ⟨this.1, this.2.trans ?_⟩
    rw [i2]; push_cast; omega
  · have heq : x.length = d.length := by omega
    obtain ⟨l, p, h1, h2⟩ := subFromLoop_eq (c := 1) hd hx.wf (le_refl _) heq
    rw [h1, ← h2]
    have := addLoop_norm (c := 1) (cmap_wf hd) hx.wf (le_refl _) (by simpa using hl)
      (by simp; omega) (fun _ => .inr hx)
    refine ⟨this.1, this.2.trans ?_⟩
    rw [cmap_sval hd]; push_cast; omega

/-! ### comparison and conversion -/

theorem eqLoop_iff : ∀ {d x : Digits}, d.length = x.length → (eqLoop d x = true ↔ d = x)
  | [], [], _ => by simp [eqLoop]
  | [], _ :: _, h => by simp at h
  | _ :: _, [], h => by simp at h
  | a :: d, b :: x, h => by
    have ih := eqLoop_iff (d := d) (x := x) (by simpa using h)
    simp only [eqLoop]
    by_cases hab : a = b
    · simp [hab, ih]
    · simp [hab]

theorem beq_iff_eq' {d x : Digits} : beq d x = true ↔ d = x := by
  unfold beq
  by_cases h : d.length = x.length
  · simp [h, eqLoop_iff h]
  · simp only [ne_eq, h, not_false_eq_true, if_true]
    constructor
    · simp
    · rintro rfl; exact absurd rfl h

/-- unsigned comparison on reversed lists of equal length -/
theorem ltRev_append {a b : Nat} : ∀ {r s : Digits}, r.length = s.length →
    ltRev (r ++ [a]) (s ++ [b]) = (if r = s then decide (a < b) else ltRev r s)
  | [], [], _ => by
    simp only [List.nil_append, ltRev]
    by_cases h : a = b <;> simp [h]
  | [], _ :: _, h => by simp at h
  | _ :: _, [], h => by simp at h
  | x :: r, y :: s, h => by
    have ih := ltRev_append (a := a) (b := b) (r := r) (s := s) (by simpa using h)
    simp only [List.cons_append, ltRev, ih, List.cons.injEq]
    by_cases hxy : x = y <;> simp [hxy]

theorem ltRev_sval : ∀ {d x : Digits}, WF d → WF x → d.length = x.length →
    (back d < 𝐇 ↔ back x < 𝐇) →
    (ltRev d.reverse x.reverse = true ↔ sval d < sval x)
  | [], _, h, _, _, _ => absurd rfl h.1
  | _ :: _, [], _, h, _, _ => absurd rfl h.1
  | [a], [b], h1, h2, _, hs => by
    have := wf_single.1 h1; have := wf_single.1 h2
    simp only [back_single] at hs
    simp only [List.reverse_singleton, ltRev, sval_single]
    by_cases hab : a = b
    · simp [hab]
    · simp only [ne_eq, hab, not_false_eq_true, if_true, decide_eq_true_eq]; split <;> split <;> omega
  | [a], _ :: _ :: _, _, _, hl, _ => by simp at hl
  | _ :: _ :: _, [b], _, _, hl, _ => by simp at hl
  | a :: a' :: d, b :: b' :: x, h1, h2, hl, hs => by
    have w1 := (wf_cons (List.cons_ne_nil _ _)).1 h1
    have w2 := (wf_cons (List.cons_ne_nil _ _)).1 h2
    rw [back_cons, back_cons] at hs
    have hl' : (a' :: d).length = (b' :: x).length := by simpa using hl
    have ih := ltRev_sval w1.2 w2.2 hl' hs
    rw [List.reverse_cons, List.reverse_cons (a := b), ltRev_append (by simpa using hl')]
    rw [sval_cons2, sval_cons2]
    have ha := w1.1
    have hb := w2.1
    split
    · next h => rw [List.reverse_inj] at h; rw [h]; simp
    · next h =>
      rw [ih]
      have : sval (a' :: d) ≠ sval (b' :: x) := by
        intro hh; exact h (by rw [sval_inj w1.2 w2.2 hl' hh])
      omega

theorem lt_spec {d x : Digits} (hd : Norm d) (hx : Norm x) :
    lt d x = true ↔ sval d < sval x := by
  have nd := isNegative_iff hd.wf
  have nx := isNegative_iff hx.wf
  have key : ∀ {d x : Digits}, Norm d → Norm x → d.length < x.length →
      (0 ≤ sval x → sval d < sval x) ∧ (sval x < 0 → sval x < sval d) := by
    intro d x hd hx hlt
    have h0 : d.length ≠ 0 := by simpa using hd.wf.1
    obtain ⟨n, hn⟩ : ∃ n, x.length = n + 2 := ⟨x.length - 2, by omega⟩
    obtain ⟨k, hk⟩ : ∃ k, d.length = k + 1 := ⟨d.length - 1, by omega⟩
    have r := (norm_iff_value n hx.wf hn).1 hx
    have s := sval_range k hd.wf hk
    have hp : (𝐇 : Int) * 𝐁 ^ k ≤ 𝐇 * 𝐁 ^ n := by
      apply mul_le_mul_of_nonneg_left _ (by norm_num)
      exact pow_le_pow_right₀ (by norm_num) (by omega)
    omega
  unfold lt
  split
  · next h =>
    rw [nd]
    have : ¬ (isNegative d = true ↔ isNegative x = true) := by
      rw [← Bool.eq_iff_iff]; exact h
    rw [nd, nx] at this; omega
  · next h =>
    have hsame : (sval d < 0 ↔ sval x < 0) := by
      rw [← nd, ← nx, ← Bool.eq_iff_iff]; simpa using h
    split
    · next hl =>
      split
      · next hn =>
        rw [nd] at hn; rw [decide_eq_true_eq]
        rcases Nat.lt_or_ge x.length d.length with hlt | hge
        · have := (key hx hd hlt).2 hn; simp [hlt, this]
        · have := (key hd hx (by omega)).2 (by omega); constructor <;> intro <;> omega
      · next hn =>
        rw [nd] at hn; rw [decide_eq_true_eq]
        rcases Nat.lt_or_ge d.length x.length with hlt | hge
        · have := (key hd hx hlt).1 (by omega); simp [hlt, this]
        · have := (key hx hd (by omega)).1 (by omega); constructor <;> intro <;> omega
    · next hl =>
      apply ltRev_sval hd.wf hx.wf (by omega)
      rw [sval_sign hd.wf, sval_sign hx.wf]; omega

end Verif.BigInt
