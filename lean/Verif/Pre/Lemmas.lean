import Verif.Pre.Root
import Verif.BitMap.Props4
import Mathlib.Algebra.Order.BigOperators.Group.Finset
/-
Invariants of the closure computation.  `R v` is the root of `v`, `O r` the set stored at the root `r`.
-/
namespace Verif.Pre
open Verif.BitMap Relation

/-- the state `d` represents a relation that contains `E` and is contained in its transitive closure -/
structure Inv (E : Nat → Nat → Prop) (n : Nat) (d : List Entry) (R : Nat → Nat) (O : Nat → Finset Nat) : Prop where
  len : d.length = n
  small : n < 2 ^ 32
  ref : ∀ x < n, refOf d x < n
  rlt : ∀ v < n, R v < n
  root : ∀ v < n, RootIs (refOf d) v (R v)
  rep : ∀ (r : Nat) (e : Entry), d[r]? = some e → e.ref = r → Rep e.out n (O r)
  sound : ∀ v < n, ∀ y ∈ O (R v), TransGen E v y
  compl : ∀ v < n, ∀ y, E v y → y ∈ O (R v)
  equiv : ∀ v < n, v ≠ R v → TransGen E v (R v) ∧ TransGen E (R v) v

variable {E : Nat → Nat → Prop} {n : Nat} {d : List Entry} {R : Nat → Nat} {O : Nat → Finset Nat}

theorem Inv.fix (h : Inv E n d R O) {r : Nat} (hr : r < n) : refOf d r = r ↔ R r = r := by
  constructor
  · intro hf; exact RootIs.unique (h.root r hr) (RootIs.self hf)
  · intro hf; have := (h.root r hr).2; rwa [hf] at this

theorem Inv.idem (h : Inv E n d R O) {v : Nat} (hv : v < n) : R (R v) = R v :=
  (h.fix (h.rlt v hv)).1 (h.root v hv).2

theorem Inv.get (h : Inv E n d R O) {r : Nat} (hr : r < n) : ∃ e, Vec.get d r = .ok e ∧ d[r]? = some e ∧ refOf d r = e.ref := by
  have hl : r < d.length := by rw [h.len]; exact hr
  exact ⟨d[r], Vec.get_ok hl, List.getElem?_eq_getElem hl, refOf_of_get (List.getElem?_eq_getElem hl)⟩

theorem Inv.repr (h : Inv E n d R O) {r : Nat} (hr : r < n) (hR : R r = r) :
    ∃ e, Vec.get d r = .ok e ∧ d[r]? = some e ∧ e.ref = r ∧ Rep e.out n (O r) := by
  obtain ⟨e, h1, h2, h3⟩ := h.get hr
  have : e.ref = r := by rw [← h3]; exact (h.fix hr).2 hR
  exact ⟨e, h1, h2, this, h.rep r e h2 this⟩

theorem Inv.memlt (h : Inv E n d R O) {r : Nat} (hr : r < n) (hR : R r = r) {x : Nat} (hx : x ∈ O r) : x < n := by
  obtain ⟨e, -, -, -, he⟩ := h.repr hr hR
  exact he.sub x hx

theorem Inv.fromRoot (h : Inv E n d R O) {v : Nat} (hv : v < n) {z : Nat} (hz : TransGen E (R v) z) : TransGen E v z := by
  by_cases hR : v = R v
  · rw [hR]; exact hz
  · exact (h.equiv v hv hR).1.trans hz

theorem Inv.toRoot (h : Inv E n d R O) {v : Nat} (hv : v < n) {z : Nat} (hz : TransGen E z v) : TransGen E z (R v) := by
  by_cases hR : v = R v
  · rw [← hR]; exact hz
  · exact hz.trans (h.equiv v hv hR).1

theorem Inv.ofRoot (h : Inv E n d R O) {v : Nat} (hv : v < n) {z : Nat} (hz : TransGen E z (R v)) : TransGen E z v := by
  by_cases hR : v = R v
  · rw [hR]; exact hz
  · exact hz.trans (h.equiv v hv hR).2

/-- how a state changes -/
structure Step (n : Nat) (R : Nat → Nat) (O : Nat → Finset Nat) (R' : Nat → Nat) (O' : Nat → Finset Nat) : Prop where
  mono : ∀ v < n, O (R v) ⊆ O' (R' v)
  roots : ∀ r < n, R' r = r → R r = r
  coarse : ∀ u < n, ∀ v < n, R u = R v → R' u = R' v

def Same (n : Nat) (R : Nat → Nat) (O : Nat → Finset Nat) (R' : Nat → Nat) (O' : Nat → Finset Nat) : Prop :=
  ∀ v < n, O (R v) = O' (R' v)

def Strict (n : Nat) (R : Nat → Nat) (O : Nat → Finset Nat) (R' : Nat → Nat) (O' : Nat → Finset Nat) : Prop :=
  ∃ v < n, ¬ O' (R' v) ⊆ O (R v)

variable {R' R'' : Nat → Nat} {O' O'' : Nat → Finset Nat}

theorem Step.refl : Step n R O R O := ⟨fun _ _ => Finset.Subset.refl _, fun _ _ h => h, fun _ _ _ _ h => h⟩

theorem Step.trans (h : Step n R O R' O') (h' : Step n R' O' R'' O'') : Step n R O R'' O'' :=
  ⟨fun v hv => (h.mono v hv).trans (h'.mono v hv), fun r hr hR => h.roots r hr (h'.roots r hr hR),
   fun u hu v hv e => h'.coarse u hu v hv (h.coarse u hu v hv e)⟩

theorem Strict.left (h : Strict n R O R' O') (h' : Step n R' O' R'' O'') : Strict n R O R'' O'' := by
  obtain ⟨v, hv, hn⟩ := h
  exact ⟨v, hv, fun hs => hn ((h'.mono v hv).trans hs)⟩

theorem Strict.right (h : Step n R O R' O') (h' : Strict n R' O' R'' O'') : Strict n R O R'' O'' := by
  obtain ⟨v, hv, hn⟩ := h'
  exact ⟨v, hv, fun hs => hn (hs.trans (h.mono v hv))⟩

/-- `x` in the set of the root `r` needs no more work -/
def SatAt (R : Nat → Nat) (O : Nat → Finset Nat) (r x : Nat) : Prop :=
  O (R x) ⊆ O r ∧ (R x = r ∨ r ∉ O (R x))

theorem SatAt.keep (hs : Step n R O R' O') (h : Same n R O R' O') {r x : Nat} (hr : r < n) (hx : x < n) (hR : R' r = r)
    (hsat : SatAt R O r x) : SatAt R' O' r x := by
  have hRr := hs.roots r hr hR
  have e1 : O' r = O r := by have := h r hr; rw [hRr, hR] at this; exact this.symm
  refine ⟨?_, ?_⟩
  · rw [← h x hx, e1]; exact hsat.1
  · rcases hsat.2 with h1 | h1
    · left
      have := hs.coarse x hx r hr (by rw [h1, hRr])
      rw [this, hR]
    · right; rw [← h x hx]; exact h1

/-- the rows before `i` need no more work -/
def Done (n i : Nat) (R : Nat → Nat) (O : Nat → Finset Nat) : Prop :=
  ∀ r < i, r < n → R r = r → ∀ x ∈ O r, SatAt R O r x

theorem Done.keep (hinv : Inv E n d R O) (hs : Step n R O R' O') (h : Same n R O R' O') {i : Nat} (hd : Done n i R O) :
    Done n i R' O' := by
  intro r hri hr hR x hx
  have hRr := hs.roots r hr hR
  have e1 : O' r = O r := by have := h r hr; rw [hRr, hR] at this; exact this.symm
  rw [e1] at hx
  exact SatAt.keep hs h hr (hinv.memlt hr hRr hx) hR (hd r hri hr hRr x hx)

/-- result of visiting `x` from `i` -/
structure Visited (E : Nat → Nat → Prop) (n : Nat) (R : Nat → Nat) (O : Nat → Finset Nat) (i x : Nat) (ready : Bool)
    (d' : List Entry) (ready' brk : Bool) (R' : Nat → Nat) (O' : Nat → Finset Nat) : Prop where
  inv : Inv E n d' R' O'
  step : Step n R O R' O'
  same : ready' = true → ready = true ∧ Same n R O R' O'
  strict : ready' = false → ready = false ∨ Strict n R O R' O'
  go : brk = false → R' i = i ∧ (ready' = true → SatAt R' O' i x)
  brk : brk = true → R' i ≠ i

theorem visit_spec (nd : Bool) (h : Inv E n d R O) {i x : Nat} (hi : i < n) (hRi : R i = i) (hx : x ∈ O i) (ready : Bool) :
    ∃ d' ready' brk R' O', visit nd i (R x) d ready = .ok (d', ready', brk) ∧
      Visited E n R O i x ready d' ready' brk R' O' := by
  have hxn := h.memlt hi hRi hx
  have hyn := h.rlt x hxn
  have hRy := h.idem hxn
  have hTix : TransGen E i (R x) := h.toRoot hxn (h.sound i hi x (by rw [hRi]; exact hx))
  unfold visit
  by_cases hyi : R x = i
  · rw [if_pos hyi]
    exact ⟨d, ready, false, R, O, rfl, h, .refl, fun hr => ⟨hr, fun _ _ => rfl⟩, fun hr => .inl hr,
      fun _ => ⟨hRi, fun _ => ⟨by rw [hyi], .inl hyi⟩⟩, by simp⟩
  · rw [if_neg hyi]
    obtain ⟨ex, gx, lx, rx, ox⟩ := h.repr hyn hRy
    obtain ⟨ei, gi, li, ri, oi⟩ := h.repr hi hRi
    rw [gx, Res.ok_bind, gi, Res.ok_bind, C19_isMember ox, Res.ok_bind]
    have hyl : R x < d.length := by rw [h.len]; exact hyn
    have hil : i < d.length := by rw [h.len]; exact hi
    by_cases hm : i ∈ O (R x)
    · -- merge
      rw [decide_eq_true hm, if_pos rfl]
      obtain ⟨b, eb, rb⟩ := C19_union nd ox oi (Nat.le_refl _)
      simp only
      rw [eb, Res.ok_bind, Vec.put_ok hyl, Res.ok_bind, Vec.put_ok (by simpa using hil), Res.ok_bind]
      have hTyi : TransGen E (R x) i := h.sound (R x) hyn i (by rw [hRy]; exact hm)
      have hO : ∀ v < n, Function.update O (R x) (O (R x) ∪ O i) (if R v = i then R x else R v) =
          if R v = i ∨ R v = R x then O (R x) ∪ O i else O (R v) := by
        intro v hv
        by_cases h1 : R v = i
        · rw [if_pos h1, if_pos (.inl h1), Function.update_self]
        · rw [if_neg h1]
          by_cases h2 : R v = R x
          · rw [if_pos (.inr h2), h2, Function.update_self]
          · rw [if_neg (by simp [h1, h2]), Function.update_of_ne h2]
      have hrefs : refOf ((d.set (R x) { ex with out := b }).set i ⟨BitMap.make 0, R x⟩) = Function.update (refOf d) i (R x) := by
        rw [refOf_set (by simpa using hil), refOf_set hyl]
        congr 1
        have : ex.ref = refOf d (R x) := by rw [rx]; exact ((h.fix hyn).2 hRy).symm
        change Function.update (refOf d) (R x) ex.ref = refOf d
        rw [this, Function.update_eq_self]
      refine ⟨_, _, true, fun v => if R v = i then R x else R v, Function.update O (R x) (O (R x) ∪ O i), rfl, ?_⟩
      refine ⟨⟨?_, h.small, ?_, ?_, ?_, ?_, ?_, ?_, ?_⟩, ⟨?_, ?_, ?_⟩, ?_, ?_, by simp, ?_⟩
      · simp [h.len]
      · intro v hv
        rw [hrefs]
        by_cases e : v = i
        · rw [e, Function.update_self]; exact hyn
        · rw [Function.update_of_ne e]; exact h.ref v hv
      · intro v hv
        split
        · exact hyn
        · exact h.rlt v hv
      · intro v hv
        rw [hrefs]
        exact RootIs.merge ((h.fix hi).2 hRi) ((h.fix hyn).2 hRy) hyi (h.root v hv)
      · intro r e he hr
        by_cases hri : r = i
        · subst hri
          rw [List.getElem?_set_self (by simpa using hil)] at he
          cases he
          exact absurd hr hyi
        · rw [List.getElem?_set_ne (fun h => hri h.symm)] at he
          by_cases hry : r = R x
          · subst hry
            rw [List.getElem?_set_self hyl] at he
            cases he
            rw [Function.update_self]; exact rb
          · rw [List.getElem?_set_ne (fun h => hry h.symm)] at he
            rw [Function.update_of_ne hry]
            exact h.rep r e he hr
      · intro v hv z hz
        rw [hO v hv] at hz
        split at hz
        · rename_i hc
          have hvi : TransGen E v i := by
            rcases hc with hc | hc
            · exact h.fromRoot hv (by rw [hc]; exact hTix.trans hTyi)
            · exact h.fromRoot hv (by rw [hc]; exact hTyi)
          rcases Finset.mem_union.1 hz with hz | hz
          · exact hvi.trans (hTix.trans (h.sound (R x) hyn z (by rw [hRy]; exact hz)))
          · exact hvi.trans (h.sound i hi z (by rw [hRi]; exact hz))
        · exact h.sound v hv z hz
      · intro v hv z hz
        have := h.compl v hv z hz
        rw [hO v hv]
        split
        · rename_i hc
          rcases hc with hc | hc
          · exact Finset.mem_union_right _ (by rw [← hc]; exact this)
          · exact Finset.mem_union_left _ (by rw [← hc]; exact this)
        · exact this
      · intro v hv hne
        by_cases hc : R v = i
        · rw [if_pos hc]
          exact ⟨h.fromRoot hv (by rw [hc]; exact hTix), h.ofRoot hv (by rw [hc]; exact hTyi)⟩
        · rw [if_neg hc] at hne ⊢
          exact h.equiv v hv hne
      · intro v hv
        rw [hO v hv]
        split
        · rename_i hc
          rcases hc with hc | hc
          · rw [hc]; exact Finset.subset_union_right
          · rw [hc]; exact Finset.subset_union_left
        · exact Finset.Subset.refl _
      · intro r hr hR
        by_cases hc : R r = i
        · rw [if_pos hc] at hR
          rw [← hR]; exact hRy
        · rwa [if_neg hc] at hR
      · intro u _ v _ he
        rw [he]
      · intro hr
        rw [Bool.and_eq_true, C19_eq ox oi] at hr
        refine ⟨hr.1, fun v hv => ?_⟩
        simp only
        rw [hO v hv]
        split
        · rename_i hc
          rw [hr.2, Finset.union_self]
          rcases hc with hc | hc
          · rw [hc]
          · rw [hc, hr.2]
        · rfl
      · intro hr
        rw [Bool.and_eq_false_iff] at hr
        rcases hr with hr | hr
        · exact .inl hr
        · right
          have hne : O (R x) ≠ O i := by
            intro he
            rw [(C19_eq ox oi).2 he] at hr
            cases hr
          by_cases hs : O i ⊆ O (R x)
          · refine ⟨i, hi, ?_⟩
            rw [hO i hi, if_pos (.inl hRi), hRi]
            intro hs'
            exact hne (Finset.Subset.antisymm ((Finset.subset_union_left).trans hs') hs)
          · refine ⟨R x, hyn, ?_⟩
            rw [hO (R x) hyn, hRy, if_pos (.inr rfl)]
            intro hs'
            exact hs ((Finset.subset_union_right).trans hs')
      · intro _
        rw [if_pos hRi]
        exact hyi
    · rw [decide_eq_false hm, if_neg (by simp), C19_contains nd oi ox (Nat.le_refl _), Res.ok_bind]
      by_cases hs : O (R x) ⊆ O i
      · rw [decide_eq_true hs, if_pos rfl]
        exact ⟨d, ready, false, R, O, rfl, h, .refl, fun hr => ⟨hr, fun _ _ => rfl⟩, fun hr => .inl hr,
          fun _ => ⟨hRi, fun _ => ⟨hs, .inr hm⟩⟩, by simp⟩
      · rw [decide_eq_false hs, if_neg (by simp)]
        obtain ⟨b, eb, rb⟩ := C19_union nd oi ox (Nat.le_refl _)
        rw [eb, Res.ok_bind, Vec.put_ok hil, Res.ok_bind]
        have hrefs : refOf (d.set i { ei with out := b }) = refOf d := by
          rw [refOf_set hil]
          have : ei.ref = refOf d i := by rw [ri]; exact ((h.fix hi).2 hRi).symm
          change Function.update (refOf d) i ei.ref = refOf d
          rw [this, Function.update_eq_self]
        have hup : ∀ v, O (R v) ⊆ Function.update O i (O i ∪ O (R x)) (R v) := by
          intro v
          by_cases hv : R v = i
          · rw [hv, Function.update_self]; exact Finset.subset_union_left
          · rw [Function.update_of_ne hv]
        refine ⟨_, false, false, R, Function.update O i (O i ∪ O (R x)), rfl, ?_⟩
        refine ⟨⟨by simp [h.len], h.small, by rw [hrefs]; exact h.ref, h.rlt, by rw [hrefs]; exact h.root, ?_, ?_, ?_, h.equiv⟩,
          ⟨fun v _ => hup v, fun _ _ h => h, fun _ _ _ _ h => h⟩, by simp, ?_, fun _ => ⟨hRi, by simp⟩, by simp⟩
        · intro r e he hr
          by_cases hri : r = i
          · subst hri
            rw [List.getElem?_set_self hil] at he
            cases he
            rw [Function.update_self]; exact rb
          · rw [List.getElem?_set_ne (fun h => hri h.symm)] at he
            rw [Function.update_of_ne hri]
            exact h.rep r e he hr
        · intro v hv z hz
          by_cases hc : R v = i
          · rw [hc, Function.update_self] at hz
            rcases Finset.mem_union.1 hz with hz | hz
            · exact h.sound v hv z (by rw [hc]; exact hz)
            · exact h.fromRoot hv (by rw [hc]; exact hTix.trans (h.sound (R x) hyn z (by rw [hRy]; exact hz)))
          · rw [Function.update_of_ne hc] at hz
            exact h.sound v hv z hz
        · intro v hv z hz
          exact hup v (h.compl v hv z hz)
        · intro _
          right
          refine ⟨i, hi, ?_⟩
          rw [hRi, Function.update_self]
          exact fun hs' => hs ((Finset.subset_union_right).trans hs')

theorem body_spec (nd : Bool) (h : Inv E n d R O) {i x : Nat} (hi : i < n) (hRi : R i = i) (hx : x ∈ O i) (ready : Bool) :
    ∃ d' ready' brk R' O', body nd i x d ready = .ok (d', ready', brk) ∧
      Visited E n R O i x ready d' ready' brk R' O' := by
  have hxn := h.memlt hi hRi hx
  obtain ⟨e, g, l, re⟩ := h.get hxn
  unfold body
  rw [g, Res.ok_bind]
  by_cases he : e.ref = i
  · rw [if_pos he]
    have hRx : R x = i := by
      refine RootIs.unique (h.root x hxn) (RootIs.back ?_)
      rw [re, he]; exact RootIs.self ((h.fix hi).2 hRi)
    exact ⟨d, ready, false, R, O, rfl, h, .refl, fun hr => ⟨hr, fun _ _ => rfl⟩, fun hr => .inl hr,
      fun _ => ⟨hRi, fun _ => ⟨by rw [hRx], .inl hRx⟩⟩, by simp⟩
  · rw [if_neg he]
    have hb : ∀ x < d.length, refOf d x < d.length := by rw [h.len]; exact h.ref
    have hxl : x < d.length := by rw [h.len]; exact hxn
    have hroot := h.root x hxn
    have hyn := h.rlt x hxn
    rw [rootLoop_spec hb (by rw [← re]; exact hb x hxl) (r := R x) (by rw [← re]; exact hroot.step) (by omega), Res.ok_bind]
    obtain ⟨k, hk1, hk2⟩ := hroot.bounded hb hxl
    obtain ⟨d1, e1, s1, b1, r1⟩ := compress_spec k hb hxl hk2 hroot.2 (by rw [h.len]; exact hyn) (f := d.length + 2) (by omega)
    rw [e1, Res.ok_bind]
    have hinv : Inv E n d1 R O := by
      refine ⟨by rw [s1.len, h.len], h.small, by rw [← h.len]; exact b1, h.rlt, fun v hv => r1 v _ (h.root v hv), ?_,
        h.sound, h.compl, h.equiv⟩
      intro r e hr her
      obtain ⟨e0, h0, h1⟩ := s1.out r e hr
      have hrn : r < n := by rw [← h.len]; exact (List.getElem?_eq_some_iff.1 h0).1
      have hRr : R r = r := RootIs.unique (r1 r _ (h.root r hrn)) (RootIs.self (by rw [refOf_of_get hr, her]))
      have := (h.fix hrn).2 hRr
      rw [refOf_of_get h0] at this
      rw [h1]
      exact h.rep r e0 h0 this
    obtain ⟨ey, gy, -, -, oy⟩ := hinv.repr hyn (h.idem hxn)
    rw [gy, Res.ok_bind, Res.assertIn_bind nd (by rw [oy.cap, hinv.len]; simp)]
    exact visit_spec nd hinv hi hRi hx ready

/-- result of a loop -/
structure Looped (E : Nat → Nat → Prop) (n : Nat) (R : Nat → Nat) (O : Nat → Finset Nat) (ready : Bool)
    (d' : List Entry) (ready' : Bool) (R' : Nat → Nat) (O' : Nat → Finset Nat) : Prop where
  inv : Inv E n d' R' O'
  step : Step n R O R' O'
  same : ready' = true → ready = true ∧ Same n R O R' O'
  strict : ready' = false → ready = false ∨ Strict n R O R' O'

theorem Looped.trans {ready ready' ready'' : Bool} {d' d'' : List Entry} (h : Looped E n R O ready d' ready' R' O')
    (h' : Looped E n R' O' ready' d'' ready'' R'' O'') : Looped E n R O ready d'' ready'' R'' O'' := by
  refine ⟨h'.inv, h.step.trans h'.step, fun hr => ?_, fun hr => ?_⟩
  · obtain ⟨a1, a2⟩ := h'.same hr
    obtain ⟨b1, b2⟩ := h.same a1
    exact ⟨b1, fun v hv => (b2 v hv).trans (a2 v hv)⟩
  · rcases h'.strict hr with h1 | h1
    · rcases h.strict h1 with h2 | h2
      · exact .inl h2
      · exact .inr (h2.left h'.step)
    · exact .inr (Strict.right h.step h1)

theorem rowLoop_spec (nd : Bool) (f : Nat) (h : Inv E n d R O) {i : Nat} (hi : i < n) (hRi : R i = i) (it : Iter)
    (hp : it.addr ≤ n) (hmem : it.addr < n → it.addr ∈ O i) (hcap : it.cap = n) (hch : it.addr < n → it.chunk = it.addr / 64)
    (hf : n - it.addr < f) (ready : Bool) (hsat : ready = true → ∀ x ∈ O i, x < it.addr → SatAt R O i x) :
    ∃ d' ready' R' O', rowLoop nd i f it d ready = .ok (d', ready') ∧ Looped E n R O ready d' ready' R' O' ∧
      (ready' = true → R' i = i → ∀ x ∈ O' i, SatAt R' O' i x) := by
  induction f generalizing d R O it ready with
  | zero => omega
  | succ f ih =>
    rw [rowLoop]
    by_cases hend : it.addr = n
    · rw [if_neg (by rw [hcap, hend]; simp)]
      refine ⟨d, ready, R, O, rfl, ⟨h, .refl, fun hr => ⟨hr, fun _ _ => rfl⟩, fun hr => .inl hr⟩, fun hr _ x hx => ?_⟩
      exact hsat hr x hx (by rw [hend]; exact h.memlt hi hRi hx)
    · rw [if_pos (by rw [hcap]; exact hend)]
      have hlt : it.addr < n := by omega
      obtain ⟨d1, ready1, brk, R1, O1, e1, v1⟩ := body_spec nd h hi hRi (hmem hlt) ready
      rw [e1, Res.ok_bind]
      simp only
      have hL1 : Looped E n R O ready d1 ready1 R1 O1 := ⟨v1.inv, v1.step, v1.same, v1.strict⟩
      cases hb : brk with
      | true =>
        rw [if_pos rfl]
        exact ⟨d1, ready1, R1, O1, rfl, hL1, fun _ hR => absurd hR (v1.brk hb)⟩
      | false =>
        rw [if_neg (by simp)]
        obtain ⟨hR1, hs1⟩ := v1.go hb
        obtain ⟨ei, gi, -, -, oi⟩ := v1.inv.repr hi hR1
        rw [gi, Res.ok_bind]
        obtain ⟨it', e2, hcap', hnext, hch'⟩ := C19_next oi (hch hlt) hlt hcap
        rw [e2, Res.ok_bind]
        have hp' : it'.addr ≤ n ∧ it.addr < it'.addr ∧ (it'.addr < n → it'.addr ∈ O1 i) ∧
            ∀ x ∈ O1 i, x < it'.addr → x ≤ it.addr := by
          rcases hnext with ⟨a1, a2, a3⟩ | ⟨a1, a2⟩
          · have := oi.sub _ a1
            refine ⟨by omega, a2, fun _ => a1, fun x hx hxl => ?_⟩
            by_contra hc
            have := a3 x hx (by omega)
            omega
          · exact ⟨by omega, by omega, fun h => by omega, fun x hx _ => a2 x hx⟩
        obtain ⟨d', ready', R', O', e3, l3, s3⟩ := ih v1.inv hR1 it' hp'.1 hp'.2.2.1 hcap' hch' (by omega) ready1 (by
          intro hr x hx hxl
          obtain ⟨hr0, hsame⟩ := v1.same hr
          by_cases hxe : x = it.addr
          · rw [hxe]; exact hs1 hr
          · have := hp'.2.2.2 x hx hxl
            have hO : O1 i = O i := by have := hsame i hi; rw [hRi, hR1] at this; exact this.symm
            rw [hO] at hx
            exact SatAt.keep v1.step hsame hi (h.memlt hi hRi hx) hR1 (hsat hr0 x hx (by omega)))
        exact ⟨d', ready', R', O', e3, hL1.trans l3, s3⟩

theorem pass_spec (nd : Bool) (m i : Nat) (hm : i + m = n) (h : Inv E n d R O) (ready : Bool)
    (hdone : ready = true → Done n i R O) :
    ∃ d' ready' R' O', pass nd i m d ready = .ok (d', ready') ∧ Looped E n R O ready d' ready' R' O' ∧
      (ready' = true → Done n n R' O') := by
  induction m generalizing i d R O ready with
  | zero =>
    refine ⟨d, ready, R, O, rfl, ⟨h, .refl, fun hr => ⟨hr, fun _ _ => rfl⟩, fun hr => .inl hr⟩, fun hr => ?_⟩
    have := hdone hr
    rwa [show i = n by omega] at this
  | succ m ih =>
    have hi : i < n := by omega
    obtain ⟨e, g, l, re⟩ := h.get hi
    rw [pass, g, Res.ok_bind]
    by_cases he : e.ref = i
    · rw [if_neg (by simpa using he)]
      have hRi : R i = i := (h.fix hi).1 (by rw [re, he])
      have oi := h.rep i e l he
      obtain ⟨f1, f2⟩ := C19_front oi
      have hf : front e.out ≤ n ∧ (front e.out < n → front e.out ∈ O i) ∧ ∀ x ∈ O i, front e.out ≤ x := by
        rcases (O i).eq_empty_or_nonempty with h0 | h0
        · rw [f1 h0]; exact ⟨Nat.le_refl _, fun h => absurd h (Nat.lt_irrefl n), fun x hx => by rw [h0] at hx; simp at hx⟩
        · exact ⟨(oi.sub _ (f2 h0).1).le, fun _ => (f2 h0).1, (f2 h0).2⟩
      obtain ⟨d1, ready1, R1, O1, e1, l1, s1⟩ := rowLoop_spec nd (d.length + 1) h hi hRi (begin e.out) hf.1 hf.2.1 oi.cap
        (fun _ => wordOf_eq _) (by rw [h.len]; omega) ready (fun _ x hx hlt => by
          have := hf.2.2 x hx
          change x < front e.out at hlt
          omega)
      rw [e1, Res.ok_bind]
      obtain ⟨d', ready', R', O', e2, l2, s2⟩ := ih (i+1) (by omega) l1.inv ready1 (by
        intro hr
        obtain ⟨hr0, hsame⟩ := l1.same hr
        have hD := Done.keep h l1.step hsame (hdone hr0)
        intro r hri hr' hRr x hx
        by_cases hri' : r = i
        · subst hri'; exact s1 hr hRr x hx
        · exact hD r (by omega) hr' hRr x hx)
      exact ⟨d', ready', R', O', e2, l1.trans l2, s2⟩
    · rw [if_pos he, Res.ok_bind]
      refine ih (i+1) (by omega) h ready fun hr r hri hr' hRr => ?_
      by_cases hri' : r = i
      · subst hri'
        exact absurd ((h.fix hi).2 hRr) (by rw [re]; exact he)
      · exact hdone hr r (by omega) hr' hRr

/-- the size of the relation -/
def weight (n : Nat) (R : Nat → Nat) (O : Nat → Finset Nat) : Nat := ∑ v ∈ Finset.range n, (O (R v)).card

theorem weight_le (h : Inv E n d R O) : weight n R O ≤ n * n := by
  unfold weight
  calc ∑ v ∈ Finset.range n, (O (R v)).card ≤ ∑ v ∈ Finset.range n, n := by
        refine Finset.sum_le_sum fun v hv => ?_
        have hv := Finset.mem_range.1 hv
        have : O (R v) ⊆ Finset.range n := fun x hx =>
          Finset.mem_range.2 (h.memlt (h.rlt v hv) (h.idem hv) hx)
        simpa using Finset.card_le_card this
    _ = n * n := by simp

theorem weight_lt (hs : Step n R O R' O') (hst : Strict n R O R' O') : weight n R O < weight n R' O' := by
  obtain ⟨v, hv, hn⟩ := hst
  refine Finset.sum_lt_sum (fun u hu => Finset.card_le_card (hs.mono u (Finset.mem_range.1 hu)))
    ⟨v, Finset.mem_range.2 hv, Finset.card_lt_card ⟨hs.mono v hv, hn⟩⟩

theorem closureLoop_spec (nd : Bool) (f : Nat) (h : Inv E n d R O) (hf : n * n < f + weight n R O) :
    ∃ d' R' O', closureLoop nd f d = .ok d' ∧ Inv E n d' R' O' ∧ Done n n R' O' := by
  induction f generalizing d R O with
  | zero => have := weight_le h; omega
  | succ f ih =>
    obtain ⟨d1, ready1, R1, O1, e1, l1, s1⟩ := pass_spec nd n 0 (by omega) h true (fun _ r hr => by omega)
    rw [closureLoop, h.len, e1, Res.ok_bind]
    simp only
    cases hr : ready1 with
    | true => rw [if_pos rfl]; exact ⟨d1, R1, O1, rfl, l1.inv, s1 hr⟩
    | false =>
      rw [if_neg (by simp)]
      rcases l1.strict hr with h1 | h1
      · cases h1
      · have := weight_lt l1.step h1
        exact ih l1.inv (by omega)

/-- after closure the sets are those of the transitive closure -/
theorem Inv.closed (h : Inv E n d R O) (hD : Done n n R O) (hE : ∀ x y, E x y → x < n ∧ y < n) {v y : Nat} (hv : v < n) :
    y ∈ O (R v) ↔ TransGen E v y := by
  refine ⟨h.sound v hv y, fun ht => ?_⟩
  induction ht with
  | single he => exact h.compl v hv _ he
  | @tail b c _ hbc ih =>
    have hs := hD (R v) (h.rlt v hv) (h.rlt v hv) (h.idem hv) b ih
    exact hs.1 (h.compl b (hE b c hbc).1 c hbc)

/-- after closure, mutually related elements have the same root -/
theorem Inv.classes (h : Inv E n d R O) (hD : Done n n R O) (hE : ∀ x y, E x y → x < n ∧ y < n) {u v : Nat} (hu : u < n)
    (hv : v < n) (h1 : TransGen E u v) (h2 : TransGen E v u) : R u = R v := by
  have ru := h.rlt u hu
  have rv := h.rlt v hv
  have a1 : v ∈ O (R u) := (h.closed hD hE hu).2 h1
  have a2 : R u ∈ O (R v) := (h.closed hD hE hv).2 (h.toRoot hu h2)
  have hs := hD (R u) ru ru (h.idem hu) v a1
  rcases hs.2 with h3 | h3
  · exact h3.symm
  · exact absurd a2 h3

end Verif.Pre
