import Verif.SL.Ops2
/-
What the functions of `simple_list` do to the lists in memory: reversing and removing.
-/
namespace Verif.SL
variable {T : Type}

theorem root_loc (r : Root) : Loc.root r = loc (.root r) ([] : List (Nat × T)) := rfl

theorem Simple.reverseLoop_ok (k : Nat) {m : Mem T} {L : Root → List (Nat × T)} (h : Rep m L) {r : Root}
    (hr0 : r ≠ .loc 0) {a b : Nat × T} {ys acc : List (Nat × T)} (e : L r = a :: b :: ys) (e0 : L (.loc 0) = acc)
    (hk : ys.length < k) :
    ∃ m' z ws, Simple.reverseLoop r k m = .ok m' ∧ z :: ws = (a :: b :: ys).reverse ++ acc ∧
      Rep m' (upd (upd L r [z]) (.loc 0) ws) ∧ Same m m' ∧ m'.fresh = m.fresh := by
  induction k generalizing m L a b ys acc with
  | zero => omega
  | succ k ih =>
    obtain ⟨m1, a1, a2, a3, a4⟩ := h.swapLink hr0.symm (xs := []) (ys := acc) (zs := [] ++ [a]) (ws := b :: ys)
      (by rw [e0]; rfl) (by rw [e]; rfl)
    have e1 : upd (upd L (.loc 0) ([] ++ b :: ys)) r ([] ++ [a] ++ acc) r = [] ++ ([a] ++ acc) := by rw [upd_same]; rfl
    have e10 : upd (upd L (.loc 0) ([] ++ b :: ys)) r ([] ++ [a] ++ acc) (.loc 0) = [] ++ (b :: ys) := by
      rw [upd_ne _ _ hr0.symm, upd_same]
    obtain ⟨m2, b1, b2, b3, b4⟩ := a2.swapLink hr0.symm e10 e1
    have e2 : upd (upd (upd (upd L (.loc 0) ([] ++ b :: ys)) r ([] ++ [a] ++ acc)) (.loc 0) ([] ++ ([a] ++ acc))) r
        ([] ++ (b :: ys)) r = [] ++ b :: ys := upd_same ..
    have e20 : upd (upd (upd (upd L (.loc 0) ([] ++ b :: ys)) r ([] ++ [a] ++ acc)) (.loc 0) ([] ++ ([a] ++ acc))) r
        ([] ++ (b :: ys)) (.loc 0) = a :: acc := by rw [upd_ne _ _ hr0.symm, upd_same]; rfl
    have e3 : upd (upd (upd (upd L (.loc 0) ([] ++ b :: ys)) r ([] ++ [a] ++ acc)) (.loc 0) ([] ++ ([a] ++ acc))) r
        ([] ++ (b :: ys)) r = [b] ++ ys := by rw [e2]; rfl
    have g3 := b2.get e3
    rw [show [b] = ([] : List (Nat × T)) ++ [b] from rfl, loc_snoc] at g3
    rw [loc_snoc] at a1
    unfold Simple.reverseLoop
    rw [root_loc (T := T) r, h.node (xs := []) e, Res.ok_bind, root_loc (T := T) (.loc 0), a1, Res.ok_bind, b1,
      Res.ok_bind, b2.node e2, Res.ok_bind, g3, Res.ok_bind]
    cases ys with
    | nil =>
      rw [if_neg (by simp)]
      refine ⟨m2, b, a :: acc, rfl, by simp, b2.congr rfl ?_, a3.trans b3, by rw [b4, a4]⟩
      clear e1 e10 e2 e20 e3
      upd_ext
    | cons c ys =>
      rw [if_pos (by simp)]
      obtain ⟨m', z, ws, c1, c2, c3, c4, c5⟩ := ih b2 (by rw [e2]; rfl) e20 (by simpa using hk)
      refine ⟨m', z, ws, c1, by rw [c2]; simp, c3.congr rfl ?_, (a3.trans b3).trans c4, by rw [c5, b4, a4]⟩
      clear e1 e10 e2 e20 e3
      upd_ext

/-- `reverse()` -/
theorem Simple.reverse_ok {m : Mem T} {L : Root → List (Nat × T)} (h : Rep m L) {r : Root}
    (h0 : L (.loc 0) = []) (hr0 : r ≠ .loc 0) :
    ∃ m', Simple.reverse m r = .ok m' ∧ Rep m' (upd L r (L r).reverse) ∧ Same m m' ∧ m'.fresh = m.fresh := by
  unfold Simple.reverse
  rw [Simple.empty_ok h, Simple.singleton_ok h, Res.ok_bind]
  rcases e : L r with _ | ⟨a, _ | ⟨b, ys⟩⟩
  · rw [if_pos (by simp)]
    exact ⟨m, rfl, h.congr rfl (upd_self L (by rw [e]; rfl)).symm, Same.rfl' m, rfl⟩
  · rw [if_pos (by simp)]
    exact ⟨m, rfl, h.congr rfl (upd_self L (by rw [e]; rfl)).symm, Same.rfl' m, rfl⟩
  · rw [if_neg (by simp)]
    obtain ⟨m1, z, ws, c1, c2, c3, c4, c5⟩ := Simple.reverseLoop_ok (m.fresh + 1) h hr0 e h0
      (by have := h.length_le r; rw [e] at this; simp at this; omega)
    have er : upd (upd L r [z]) (.loc 0) ws r = [] ++ z :: [] := by rw [upd_ne _ _ hr0, upd_same]; rfl
    obtain ⟨m2, d1, d2, d3, d4⟩ := c3.moveLink hr0 (xs := [] ++ [z]) (ys := []) (zs := []) (ws := ws)
      (by rw [er]; rfl) (by rw [upd_same]; rfl)
    rw [loc_snoc] at d1
    rw [c1, Res.ok_bind, root_loc (T := T) r, c3.node er, Res.ok_bind, root_loc (T := T) (.loc 0), d1]
    refine ⟨m2, rfl, d2.congr rfl ?_, c4.trans d3, by rw [d4, c5]⟩
    have : [] ++ [z] ++ ws = (a :: b :: ys).reverse := by rw [List.append_nil] at c2; exact c2
    rw [this]
    clear er c2 this
    upd_ext

theorem Simple.reverseRangeLoop_ok (k : Nat) {m : Mem T} {L : Root → List (Nat × T)} (h : Rep m L)
    {a b : Nat × T} {ys acc : List (Nat × T)} (e : L (.loc 1) = a :: b :: ys) (e0 : L (.loc 0) = acc)
    (hk : ys.length < k) :
    ∃ m' z ws, Simple.reverseRangeLoop (loc (.root (.loc 1)) (a :: b :: ys)) k m = .ok m' ∧
      z :: ws = (a :: b :: ys).reverse ++ acc ∧
      Rep m' (upd (upd L (.loc 1) [z]) (.loc 0) ws) ∧ Same m m' ∧ m'.fresh = m.fresh := by
  have hr0 : Root.loc 1 ≠ .loc 0 := by decide
  induction k generalizing m L a b ys acc with
  | zero => omega
  | succ k ih =>
    obtain ⟨m1, a1, a2, a3, a4⟩ := h.swapLink hr0.symm (xs := []) (ys := acc) (zs := [] ++ [a]) (ws := b :: ys)
      (by rw [e0]; rfl) (by rw [e]; rfl)
    have e1 : upd (upd L (.loc 0) ([] ++ b :: ys)) (.loc 1) ([] ++ [a] ++ acc) (.loc 1) = [] ++ ([a] ++ acc) := by
      rw [upd_same]; rfl
    have e10 : upd (upd L (.loc 0) ([] ++ b :: ys)) (.loc 1) ([] ++ [a] ++ acc) (.loc 0) = [] ++ (b :: ys) := by
      rw [upd_ne _ _ hr0.symm, upd_same]
    obtain ⟨m2, b1, b2, b3, b4⟩ := a2.swapLink hr0.symm e10 e1
    have e2 : upd (upd (upd (upd L (.loc 0) ([] ++ b :: ys)) (.loc 1) ([] ++ [a] ++ acc)) (.loc 0) ([] ++ ([a] ++ acc)))
        (.loc 1) ([] ++ (b :: ys)) (.loc 1) = [] ++ b :: ys := upd_same ..
    have e20 : upd (upd (upd (upd L (.loc 0) ([] ++ b :: ys)) (.loc 1) ([] ++ [a] ++ acc)) (.loc 0) ([] ++ ([a] ++ acc)))
        (.loc 1) ([] ++ (b :: ys)) (.loc 0) = a :: acc := by rw [upd_ne _ _ hr0.symm, upd_same]; rfl
    rw [loc_snoc] at a1
    unfold Simple.reverseRangeLoop
    rw [root_loc (T := T) (.loc 1), h.node (xs := []) e, Res.ok_bind, root_loc (T := T) (.loc 0), a1, Res.ok_bind, b1,
      Res.ok_bind, b2.node e2, Res.ok_bind]
    have hto : loc (Loc.root (.loc 1)) (a :: b :: ys) = loc (.root (.loc 1)) (b :: ys) := rfl
    rw [← root_loc (T := T) (.loc 1), hto]
    cases ys with
    | nil =>
      rw [if_neg (by simp [loc])]
      refine ⟨m2, b, a :: acc, rfl, by simp, b2.congr rfl ?_, a3.trans b3, by rw [b4, a4]⟩
      clear e1 e10 e2 e20
      upd_ext
    | cons c ys =>
      have hne : Loc.next b.1 ≠ loc (.root (.loc 1)) (b :: c :: ys) := by
        intro heq
        have := b2.loc_inj (xs := [b]) (ys := c :: ys) (zs := b :: c :: ys) (ws := []) (by rw [e2]; rfl)
          (by rw [e2]; simp) heq
        simp at this
      rw [if_pos hne]
      obtain ⟨m', z, ws, c1, c2, c3, c4, c5⟩ := ih b2 (by rw [e2]; rfl) e20 (by simpa using hk)
      refine ⟨m', z, ws, c1, by rw [c2]; simp, c3.congr rfl ?_, (a3.trans b3).trans c4, by rw [c5, b4, a4]⟩
      clear e1 e10 e2 e20
      upd_ext

/-- the main part of `reverse(from,to)` -/
theorem Simple.reverseMain_ok {m : Mem T} {L : Root → List (Nat × T)} (h : Rep m L) {r : Root}
    (h0 : L (.loc 0) = []) (hr0 : r ≠ .loc 0) (h1 : L (.loc 1) = []) (hr1 : r ≠ .loc 1)
    {xs ys zs : List (Nat × T)} {a b : Nat × T} (e : L r = xs ++ ((a :: b :: ys) ++ zs)) :
    ∃ m', Simple.reverseMain m (loc (.root r) xs) (loc (.root r) (xs ++ (a :: b :: ys))) =
        .ok (m', loc (.root r) (xs ++ (a :: b :: ys).reverse)) ∧
      Rep m' (upd L r (xs ++ ((a :: b :: ys).reverse ++ zs))) ∧ Same m m' ∧ m'.fresh = m.fresh := by
  unfold Simple.reverseMain
  have h10 : Root.loc 1 ≠ .loc 0 := by decide
  obtain ⟨m1, a1, a2, a3, a4⟩ := h.moveLink hr0.symm (xs := []) (ys := []) (zs := xs ++ (a :: b :: ys)) (ws := zs)
    h0 (by rw [e]; simp)
  obtain ⟨m2, b1, b2, b3, b4⟩ := a2.moveLink hr1.symm (xs := []) (ys := []) (zs := xs) (ws := a :: b :: ys)
    (by rw [upd_ne _ _ hr1.symm, upd_ne _ _ h10, h1]; rfl) (by rw [upd_same])
  have e1 : upd (upd (upd (upd L (.loc 0) ([] ++ zs)) r (xs ++ (a :: b :: ys))) (.loc 1) ([] ++ (a :: b :: ys))) r xs
      (.loc 1) = a :: b :: ys := by rw [upd_ne _ _ hr1.symm, upd_same]; rfl
  have e0 : upd (upd (upd (upd L (.loc 0) ([] ++ zs)) r (xs ++ (a :: b :: ys))) (.loc 1) ([] ++ (a :: b :: ys))) r xs
      (.loc 0) = zs := by
    rw [upd_ne _ _ hr0.symm, upd_ne _ _ h10.symm, upd_ne _ _ hr0.symm, upd_same]; rfl
  obtain ⟨m3, z, ws, c1, c2, c3, c4, c5⟩ := Simple.reverseRangeLoop_ok (m2.fresh + 1) b2 e1 e0
    (by have := b2.length_le (.loc 1); rw [e1] at this; simp at this; omega)
  have hto : loc (Loc.root r) (xs ++ (a :: b :: ys)) = loc (.root (.loc 1)) (a :: b :: ys) := by
    rw [loc_append]; exact loc_indep (by simp)
  have hz : loc (Loc.root r) (xs ++ (a :: b :: ys)) = loc (.root (.loc 1)) [z] := by
    rw [hto]
    have : ∃ us, a :: b :: ys = us ++ [z] := by
      refine ⟨(a :: b :: ys).dropLast, ?_⟩
      have h2 : (a :: b :: ys).getLast (by simp) = z := by
        have h3 := congrArg List.head? c2
        rw [List.head?_append_of_ne_nil _ (by simp), List.head?_reverse, List.getLast?_eq_getLast_of_ne_nil (by simp)] at h3
        exact (Option.some.inj h3).symm
      rw [← h2, List.dropLast_append_getLast]
    obtain ⟨us, hu⟩ := this
    rw [hu, loc_append]
    exact loc_indep (by simp)
  obtain ⟨m4, d1, d2, d3, d4⟩ := c3.moveLink h10 (xs := [z]) (ys := []) (zs := []) (ws := ws)
    (by rw [upd_ne _ _ h10, upd_same]; rfl) (by rw [upd_same]; rfl)
  obtain ⟨m5, f1, f2, f3, f4⟩ := d2.moveLink hr1 (xs := xs) (ys := []) (zs := []) (ws := [z] ++ ws)
    (by rw [upd_ne _ _ hr0, upd_ne _ _ hr1, upd_ne _ _ hr0, upd_ne _ _ hr1, upd_same]; simp)
    (by rw [upd_ne _ _ h10, upd_same]; rfl)
  rw [← root_loc] at a1 b1 d1 f1
  rw [← hto] at c1
  rw [← hz] at d1
  rw [a1, Res.ok_bind, b1, Res.ok_bind, root_loc (T := T) (.loc 1), b2.node (xs := []) e1, Res.ok_bind, c1, Res.ok_bind,
    d1, Res.ok_bind, ← root_loc, f1, Res.ok_bind]
  refine ⟨m5, ?_, f2.congr rfl ?_, (((a3.trans b3).trans c4).trans d3).trans f3, by rw [f4, d4, c5, b4, a4]⟩
  · congr 2
    rw [List.reverse_cons, ← List.append_assoc, loc_snoc]
  · have : [z] ++ ws = (a :: b :: ys).reverse ++ zs := c2
    rw [this]
    clear c2 this e1 e0 e hto hz
    upd_ext

/-- `reverse(from,to)` -/
theorem Simple.reverseRange_ok {m : Mem T} {L : Root → List (Nat × T)} (h : Rep m L) {r : Root}
    (h0 : L (.loc 0) = []) (hr0 : r ≠ .loc 0) (h1 : L (.loc 1) = []) (hr1 : r ≠ .loc 1)
    {xs ys zs : List (Nat × T)} (e : L r = xs ++ (ys ++ zs)) :
    ∃ m', Simple.reverseRange m (loc (.root r) xs) (loc (.root r) (xs ++ ys)) =
        .ok (m', loc (.root r) (xs ++ ys.reverse)) ∧
      Rep m' (upd L r (xs ++ (ys.reverse ++ zs))) ∧ Same m m' ∧ m'.fresh = m.fresh := by
  unfold Simple.reverseRange
  have e' : L r = (xs ++ ys) ++ zs := by rw [e]; simp
  rcases ys with _ | ⟨a, _ | ⟨b, ys⟩⟩
  · rw [if_pos (by simp)]
    exact ⟨m, by simp, h.congr rfl (upd_self L (by rw [e]; rfl)).symm, Same.rfl' m, rfl⟩
  · rw [if_neg (fun heq => by have := (h.loc_inj e e' heq).2; simp at this), h.advance e, Res.ok_bind, if_pos rfl]
    exact ⟨m, by simp, h.congr rfl (upd_self L (by rw [e]; rfl)).symm, Same.rfl' m, rfl⟩
  · rw [if_neg (fun heq => by have := (h.loc_inj e e' heq).2; simp at this), h.advance e, Res.ok_bind,
      if_neg (fun heq => by
        have := (h.loc_inj (xs := xs ++ [a]) (ys := b :: ys ++ zs) (by rw [e]; simp) e' heq).2
        simp at this)]
    exact Simple.reverseMain_ok h h0 hr0 h1 hr1 e

theorem Simple.removeLoop_ok (pred : T → Bool) (k : Nat) {m : Mem T} {L : Root → List (Nat × T)} (h : Rep m L)
    {r t : Root} (htr : t ≠ r) (ht : L t = []) {xs ys : List (Nat × T)} (e : L r = xs ++ ys) (hk : ys.length < k) :
    ∃ m', Simple.removeLoop pred k m (loc (.root r) xs) = .ok m' ∧
      Rep m' (upd L r (xs ++ ys.filter (fun a => !pred a.2))) ∧ Same m m' ∧ m'.fresh = m.fresh := by
  induction k generalizing m L xs ys with
  | zero => omega
  | succ k ih =>
    unfold Simple.removeLoop
    rw [h.atEnd e, Res.ok_bind]
    cases ys with
    | nil => exact ⟨m, rfl, h.congr rfl (upd_self L (by rw [e]; rfl)).symm, Same.rfl' m, rfl⟩
    | cons a ys =>
      rw [if_neg (by simp), h.node e, Res.ok_bind, h.contents (r := r) (by rw [e]; simp), Res.ok_bind]
      by_cases hp : pred a.2 = true
      · rw [if_pos hp]
        obtain ⟨m1, a1, a2, a3, a4⟩ := h.drop htr ht (xs := xs) (ys := [a]) (zs := ys) e
        rw [loc_snoc] at a1
        rw [a1, Res.ok_bind]
        obtain ⟨m', b1, b2, b3, b4⟩ := ih a2 (by rw [upd_ne _ _ htr, ht]) (upd_same ..) (by simpa using hk)
        refine ⟨m', b1, b2.congr rfl ?_, a3.trans b3, by rw [b4, a4]⟩
        rw [upd_upd]; simp [hp]
      · rw [if_neg hp]
        obtain ⟨m', b1, b2, b3, b4⟩ := ih h (xs := xs ++ [a]) (ys := ys) ht (by rw [e]; simp) (by simpa using hk)
        rw [loc_snoc] at b1
        refine ⟨m', b1, b2.congr rfl ?_, b3, b4⟩
        simp [hp]

/-- `remove_if` -/
theorem Simple.removeIf_ok (pred : T → Bool) {m : Mem T} {L : Root → List (Nat × T)} (h : Rep m L)
    {r t : Root} (htr : t ≠ r) (ht : L t = []) :
    ∃ m', Simple.removeIf m r pred = .ok m' ∧
      Rep m' (upd L r ((L r).filter (fun a => !pred a.2))) ∧ Same m m' ∧ m'.fresh = m.fresh :=
  Simple.removeLoop_ok pred (m.fresh + 1) h htr ht (xs := []) rfl (by have := h.length_le r; omega)

/-- the argument is not an element of a given list -/
def Outside (l : List (Nat × T)) : Simple.Arg T → Prop
  | .val _ => True
  | .elem a => ∀ b ∈ l, b.1 ≠ a

theorem Simple.removeValLoop_ok [DecidableEq T] (v : Simple.Arg T) (x : T) (k : Nat) {m : Mem T}
    {L : Root → List (Nat × T)} (h : Rep m L) {r t : Root} (htr : t ≠ r) (ht : L t = []) {xs ys : List (Nat × T)}
    (e : L r = xs ++ ys) (hk : ys.length < k) (hv : v.read m = .ok x) (ho : Outside (L r) v) :
    ∃ m', Simple.removeValLoop v k m (loc (.root r) xs) = .ok m' ∧
      Rep m' (upd L r (xs ++ ys.filter (fun a => !decide (a.2 = x)))) ∧ Same m m' ∧ m'.fresh = m.fresh := by
  induction k generalizing m L xs ys with
  | zero => omega
  | succ k ih =>
    unfold Simple.removeValLoop
    rw [h.atEnd e, Res.ok_bind]
    cases ys with
    | nil => exact ⟨m, rfl, h.congr rfl (upd_self L (by rw [e]; rfl)).symm, Same.rfl' m, rfl⟩
    | cons a ys =>
      rw [if_neg (by simp), h.node e, Res.ok_bind, h.contents (r := r) (by rw [e]; simp), Res.ok_bind, hv, Res.ok_bind]
      by_cases hp : a.2 = x
      · rw [if_pos hp]
        obtain ⟨m1, a1, a2, a3, a4⟩ := h.drop htr ht (xs := xs) (ys := [a]) (zs := ys) e
        rw [loc_snoc] at a1
        rw [a1, Res.ok_bind]
        have hv1 : v.read m1 = .ok x := by
          cases v with
          | val y => exact hv
          | elem c =>
            obtain ⟨y, hy⟩ : ∃ y, m.cont c = some y := by
              cases hc : m.cont c with
              | none => simp [Simple.Arg.read, SL.contents, hc] at hv
              | some y => exact ⟨y, rfl⟩
            have hyx : y = x := by
              simp only [Simple.Arg.read, SL.contents, hy] at hv
              exact Res.ok.inj hv
            obtain ⟨s, hs⟩ := h.owned c y hy
            have hsr : s ≠ r := by
              intro hsr
              rw [hsr] at hs
              exact ho _ hs rfl
            have := a2.contents (r := s) (a := (c, y)) (by rw [upd_ne _ _ hsr]; exact hs)
            rw [hyx] at this
            exact this
        have ho1 : Outside (upd L r (xs ++ ys) r) v := by
          cases v with
          | val y => trivial
          | elem c =>
            intro b hb
            rw [upd_same] at hb
            refine ho b ?_
            rw [e]
            rcases List.mem_append.mp hb with hb | hb <;> simp [hb]
        obtain ⟨m', b1, b2, b3, b4⟩ := ih a2 (by rw [upd_ne _ _ htr, ht]) (upd_same ..) (by simpa using hk) hv1 ho1
        refine ⟨m', b1, b2.congr rfl ?_, a3.trans b3, by rw [b4, a4]⟩
        rw [upd_upd]; simp [hp]
      · rw [if_neg hp]
        obtain ⟨m', b1, b2, b3, b4⟩ := ih h (xs := xs ++ [a]) (ys := ys) ht (by rw [e]; simp) (by simpa using hk) hv ho
        rw [loc_snoc] at b1
        refine ⟨m', b1, b2.congr rfl ?_, b3, b4⟩
        simp [hp]

/-- `remove`, for a value that is not an element of the list -/
theorem Simple.remove_ok [DecidableEq T] (v : Simple.Arg T) (x : T) {m : Mem T}
    {L : Root → List (Nat × T)} (h : Rep m L) {r t : Root} (htr : t ≠ r) (ht : L t = [])
    (hv : v.read m = .ok x) (ho : Outside (L r) v) :
    ∃ m', Simple.remove m r v = .ok m' ∧
      Rep m' (upd L r ((L r).filter (fun a => !decide (a.2 = x)))) ∧ Same m m' ∧ m'.fresh = m.fresh :=
  Simple.removeValLoop_ok v x (m.fresh + 1) h htr ht (xs := []) rfl (by have := h.length_le r; omega) hv ho

theorem Simple.uniqueLoop_ok (rel : T → T → Bool) (k : Nat) {m : Mem T} {L : Root → List (Nat × T)} (h : Rep m L)
    {r t : Root} (htr : t ≠ r) (ht : L t = []) {xs ys : List (Nat × T)} {a : Nat × T} (e : L r = xs ++ a :: ys)
    (hk : ys.length < k) :
    ∃ m', Simple.uniqueLoop rel k m a.1 = .ok m' ∧
      Rep m' (upd L r (xs ++ ys.destutter' (fun b c => ¬ rel b.2 c.2 = true) a)) ∧ Same m m' ∧ m'.fresh = m.fresh := by
  induction k generalizing m L xs ys a with
  | zero => omega
  | succ k ih =>
    unfold Simple.uniqueLoop
    have g := h.get (r := r) (xs := xs ++ [a]) (ys := ys) (by rw [e]; simp)
    rw [loc_snoc] at g
    rw [g, Res.ok_bind]
    cases ys with
    | nil => exact ⟨m, rfl, h.congr rfl (upd_self L (by rw [e]; rfl)).symm, Same.rfl' m, rfl⟩
    | cons b ys =>
      dsimp only [List.head?_cons, Option.map_some]
      rw [h.contents (r := r) (a := a) (by rw [e]; simp), Res.ok_bind, h.contents (r := r) (a := b) (by rw [e]; simp),
        Res.ok_bind]
      by_cases hp : rel a.2 b.2 = true
      · rw [if_pos hp]
        obtain ⟨m1, a1, a2, a3, a4⟩ := h.drop htr ht (xs := xs ++ [a]) (ys := [b]) (zs := ys) (by rw [e]; simp)
        rw [loc_snoc, loc_snoc] at a1
        rw [a1, Res.ok_bind]
        obtain ⟨m', b1, b2, b3, b4⟩ := ih a2 (xs := xs) (ys := ys) (a := a) (by rw [upd_ne _ _ htr, ht])
          (by rw [upd_same]; simp) (by simpa using hk)
        refine ⟨m', b1, b2.congr rfl ?_, a3.trans b3, by rw [b4, a4]⟩
        rw [upd_upd]
        simp [List.destutter'_cons, hp]
      · rw [if_neg hp]
        obtain ⟨m', b1, b2, b3, b4⟩ := ih h (xs := xs ++ [a]) (ys := ys) (a := b) ht (by rw [e]; simp)
          (by simpa using hk)
        refine ⟨m', b1, b2.congr rfl ?_, b3, b4⟩
        simp [List.destutter'_cons, hp]

/-- `unique` -/
theorem Simple.unique_ok (rel : T → T → Bool) {m : Mem T} {L : Root → List (Nat × T)} (h : Rep m L)
    {r t : Root} (htr : t ≠ r) (ht : L t = []) :
    ∃ m', Simple.unique m r rel = .ok m' ∧
      Rep m' (upd L r ((L r).destutter (fun b c => ¬ rel b.2 c.2 = true))) ∧ Same m m' ∧ m'.fresh = m.fresh := by
  unfold Simple.unique
  have hl := h.link (r := r) (xs := []) (ys := L r) rfl
  rw [root_loc (T := T) r, hl]
  rcases e : L r with _ | ⟨a, ys⟩
  · exact ⟨m, rfl, h.congr rfl (upd_self L (by rw [e]; rfl)).symm, Same.rfl' m, rfl⟩
  · exact Simple.uniqueLoop_ok rel (m.fresh + 1) h htr ht (xs := []) e
      (by have := h.length_le r; rw [e] at this; simp at this; omega)

end Verif.SL
