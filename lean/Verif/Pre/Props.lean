import Verif.Pre.Lemmas
/-
C31: transitive closure, cliques and reversal of preorders.
-/
namespace Verif.Pre
open Verif.BitMap Relation

variable {E : Nat → Nat → Prop} {n : Nat} {d : List Entry} {R : Nat → Nat} {O : Nat → Finset Nat}

/-- every entry refers to itself and holds the set `A x` -/
structure Rows (n : Nat) (d : List Entry) (A : Nat → Finset Nat) : Prop where
  len : d.length = n
  small : n < 2 ^ 32
  row : ∀ x < n, ∃ b, d[x]? = some ⟨b, x⟩ ∧ Rep b n (A x)

theorem Rows.inv {A : Nat → Finset Nat} (h : Rows n d A) (hE : ∀ x y, E x y ↔ x < n ∧ y ∈ A x) : Inv E n d id A := by
  have href : ∀ x < n, refOf d x = x := by
    intro x hx
    obtain ⟨b, h1, -⟩ := h.row x hx
    exact refOf_of_get h1
  refine ⟨h.len, h.small, fun x hx => by rw [href x hx]; exact hx, fun _ h => h, fun v hv => RootIs.self (href v hv), ?_,
    fun v hv y hy => .single ((hE v y).2 ⟨hv, hy⟩), fun v hv y hy => ((hE v y).1 hy).2, fun v _ hn => absurd rfl hn⟩
  intro r e he _
  have hr : r < n := by rw [← h.len]; exact (List.getElem?_eq_some_iff.1 he).1
  obtain ⟨b, h1, h2⟩ := h.row r hr
  rw [h1] at he
  cases he
  exact h2

theorem relates_spec (h : Inv E n d R O) (ready : Bool) (x y : Nat) :
    relates ⟨d, ready⟩ x y = .ok (decide (x < n ∧ y ∈ O (R x))) := by
  unfold relates
  by_cases hx : x < n
  · have hxl : x < d.length := by rw [h.len]; exact hx
    rw [if_pos hxl]
    have hb : ∀ x < d.length, refOf d x < d.length := by rw [h.len]; exact h.ref
    obtain ⟨e, g, -, -, o⟩ := h.repr (h.rlt x hx) (h.idem hx)
    rw [root, rootLoop_spec hb hxl (h.root x hx) (Nat.le_succ _), Res.ok_bind, g, Res.ok_bind, C19_isMember o]
    simp [hx]
  · rw [if_neg (by rw [h.len]; exact hx)]
    simp [hx]

theorem ofListsLoop_spec (nd : Bool) (n : Nat) (hn : n < 2 ^ 32) (i : Nat) (ls : List (List Nat)) (hl : ∀ l ∈ ls, ∀ y ∈ l, y < n) :
    ∃ r, ofListsLoop nd n i ls = .ok r ∧ r.length = ls.length ∧
      ∀ (j : Nat) (l : List Nat), ls[j]? = some l → ∃ b, r[j]? = some (⟨b, i + j⟩ : Entry) ∧ Rep b n l.toFinset := by
  induction ls generalizing i with
  | nil => exact ⟨[], rfl, rfl, by simp⟩
  | cons l ls ih =>
    obtain ⟨b, e1, r1⟩ := C19_ofList nd (c := n) (by omega) (hl l List.mem_cons_self)
    obtain ⟨r, e2, l2, h2⟩ := ih (i+1) fun m hm => hl m (List.mem_cons_of_mem _ hm)
    refine ⟨⟨b, i⟩ :: r, by rw [ofListsLoop, e1, Res.ok_bind, e2, Res.ok_bind], by simp [l2], fun j m hj => ?_⟩
    cases j with
    | zero => simp at hj; subst hj; exact ⟨b, by simp, r1⟩
    | succ j =>
      simp only [List.getElem?_cons_succ] at hj ⊢
      obtain ⟨c, h3, h4⟩ := h2 j m hj
      exact ⟨c, by rw [h3]; congr 2; omega, h4⟩

theorem ofLists_rows (nd : Bool) (ls : List (List Nat)) (h : Proper ls) :
    ∃ d, ofLists nd ls = .ok ⟨d, false⟩ ∧ Rows ls.length d (fun x => (ls.getD x []).toFinset) := by
  obtain ⟨r, e, l, hr⟩ := ofListsLoop_spec nd ls.length h.1 0 ls (by
    intro l hl y hy
    obtain ⟨x, hx⟩ := List.mem_iff_getElem?.1 hl
    exact h.2 x y ⟨l, hx, hy⟩)
  refine ⟨r, by rw [ofLists, e, Res.ok_bind], l, h.1, fun x hx => ?_⟩
  obtain ⟨b, h1, h2⟩ := hr x ls[x] (List.getElem?_eq_getElem hx)
  refine ⟨b, by simpa using h1, ?_⟩
  simpa [List.getD_eq_getElem?_getD, hx] using h2

theorem edge_iff (ls : List (List Nat)) (x y : Nat) : Edge ls x y ↔ x < ls.length ∧ y ∈ (ls.getD x []).toFinset := by
  unfold Edge
  constructor
  · rintro ⟨l, h1, h2⟩
    have hx := (List.getElem?_eq_some_iff.1 h1).1
    refine ⟨hx, ?_⟩
    rw [List.getD_eq_getElem?_getD, h1]; simpa using h2
  · rintro ⟨h1, h2⟩
    refine ⟨ls[x], List.getElem?_eq_getElem h1, ?_⟩
    simpa [List.getD_eq_getElem?_getD, h1] using h2

theorem closure_rows (nd : Bool) {A : Nat → Finset Nat} (h : Rows n d A) (hE : ∀ x y, E x y ↔ x < n ∧ y ∈ A x) :
    ∃ d' R O, closure nd ⟨d, false⟩ = .ok ⟨d', true⟩ ∧ Inv E n d' R O ∧ Done n n R O := by
  obtain ⟨d', R, O, e, h1, h2⟩ := closureLoop_spec nd (n * n + 1) (h.inv hE) (by omega)
  refine ⟨d', R, O, ?_, h1, h2⟩
  rw [closure, if_neg (by simp)]
  simp only
  rw [h.len, e, Res.ok_bind]

theorem Rows.edge {A : Nat → Finset Nat} (h : Rows n d A) (hE : ∀ x y, E x y ↔ x < n ∧ y ∈ A x) (x y : Nat) (he : E x y) :
    x < n ∧ y < n := by
  obtain ⟨h1, h2⟩ := (hE x y).1 he
  obtain ⟨b, -, r⟩ := h.row x h1
  exact ⟨h1, r.sub y h2⟩

/-- A preorder constructed from lists relates exactly the listed pairs.  `closure` terminates, and afterwards `x` is
related to `y` exactly if a path leads from `x` to `y`; a second call changes nothing. -/
theorem C31_closure (nd : Bool) (ls : List (List Nat)) (h : Proper ls) :
    ∃ p q, ofLists nd ls = .ok p ∧ closure nd p = .ok q ∧
      (∀ x y, ∃ b, relates p x y = .ok b ∧ (b = true ↔ Edge ls x y)) ∧
      (∀ x y, ∃ b, relates q x y = .ok b ∧ (b = true ↔ Path ls x y)) ∧
      q.data.length = ls.length ∧ closure nd q = .ok q := by
  obtain ⟨d, e, hr⟩ := ofLists_rows nd ls h
  obtain ⟨d', R, O, e2, hi, hD⟩ := closure_rows nd hr (edge_iff ls)
  refine ⟨_, _, e, e2, fun x y => ⟨_, relates_spec (hr.inv (edge_iff ls)) _ x y, ?_⟩,
    fun x y => ⟨_, relates_spec hi _ x y, ?_⟩, hi.len, ?_⟩
  · rw [decide_eq_true_eq, edge_iff]; rfl
  · rw [decide_eq_true_eq]
    have hE := hr.edge (edge_iff ls)
    constructor
    · rintro ⟨h1, h2⟩
      exact (hi.closed hD hE h1).1 h2
    · intro hp
      have hx : x < ls.length := by
        obtain ⟨z, hz, -⟩ := TransGen.head'_iff.1 hp
        exact (hE x z hz).1
      exact ⟨hx, (hi.closed hD hE hx).2 hp⟩
  · rfl

/-- The relation without pairs is already closed. -/
theorem C31_make (nd : Bool) (n : Nat) (hn : n < 2 ^ 32) :
    closure nd (make n) = .ok (make n) ∧ (make n).data.length = n ∧ ∀ x y, relates (make n) x y = .ok false := by
  have hr : Rows n (make n).data (fun _ => ∅) := by
    refine ⟨by simp [make], hn, fun x hx => ⟨BitMap.make n, ?_, C19_make (by omega)⟩⟩
    simp [make, hx]
  refine ⟨rfl, by simp [make], fun x y => ?_⟩
  have := relates_spec (hr.inv (E := fun _ _ => False) (by simp)) true x y
  have h2 : relates (make n) x y = relates ⟨(make n).data, true⟩ x y := rfl
  rw [h2, this]; simp

/-! ### Cliques -/

theorem members_spec (h : Inv E n d R O) (x : Nat) (l : List Nat) (hl : ∀ y ∈ l, y < n) :
    members d x l = .ok (l.filter fun y => decide (R y = x)) := by
  induction l with
  | nil => rfl
  | cons y l ih =>
    have hy := hl y List.mem_cons_self
    have hyl : y < d.length := by rw [h.len]; exact hy
    have hb : ∀ x < d.length, refOf d x < d.length := by rw [h.len]; exact h.ref
    rw [members, root, rootLoop_spec hb hyl (h.root y hy) (by omega), Res.ok_bind,
      ih fun z hz => hl z (List.mem_cons_of_mem _ hz), Res.ok_bind, List.filter_cons]
    by_cases he : R y = x
    · simp [he]
    · simp [he]

/-- `l` lists in increasing order the members with root `r` -/
def ListsClass (R : Nat → Nat) (O : Nat → Finset Nat) (r : Nat) (l : List Nat) : Prop :=
  l.Pairwise (· < ·) ∧ ∀ y, y ∈ l ↔ y ∈ O r ∧ R y = r

theorem cliquesLoop_spec (h : Inv E n d R O) (m x : Nat) (hm : x + m = n) :
    ∃ L, cliquesLoop d x m = .ok L ∧
      List.Forall₂ (ListsClass R O) ((List.range' x m).filter fun r => decide (R r = r ∧ r ∈ O r)) L := by
  induction m generalizing x with
  | zero => exact ⟨[], rfl, .nil⟩
  | succ m ih =>
    obtain ⟨L, eL, hL⟩ := ih (x+1) (by omega)
    have hx : x < n := by omega
    obtain ⟨e, g, l, re⟩ := h.get hx
    rw [cliquesLoop, g, Res.ok_bind, eL, List.range'_succ, List.filter_cons]
    by_cases he : e.ref = x
    · have hR := (h.fix hx).1 (by rw [re, he])
      have o := h.rep x e l he
      rw [if_pos he, C19_isMember o, Res.ok_bind]
      by_cases hm : x ∈ O x
      · obtain ⟨t, e1, t1, t2⟩ := C19_elements o
        rw [decide_eq_true hm, if_pos rfl, e1, Res.ok_bind, members_spec h x t (fun y hy => o.sub y ((t2 y).1 hy)),
          Res.ok_bind, Res.ok_bind, Res.ok_bind]
        refine ⟨_, rfl, ?_⟩
        rw [if_pos (by simp [hR, hm])]
        refine .cons ⟨t1.filter _, fun y => ?_⟩ hL
        rw [List.mem_filter, t2, decide_eq_true_eq]
      · rw [decide_eq_false hm, if_neg (by simp), Res.ok_bind, Res.ok_bind]
        refine ⟨_, rfl, ?_⟩
        rw [if_neg (by simp [hm])]
        exact hL
    · have hR : R x ≠ x := fun hR => he (by rw [← re]; exact (h.fix hx).2 hR)
      rw [if_neg he, Res.ok_bind, if_neg (by simp), Res.ok_bind, Res.ok_bind]
      refine ⟨_, rfl, ?_⟩
      rw [if_neg (by simp [hR])]
      exact hL

theorem classes_disjoint {rs : List Nat} {L : List (List Nat)} (h : List.Forall₂ (ListsClass R O) rs L) (hn : rs.Nodup) :
    L.Pairwise List.Disjoint := by
  induction h with
  | nil => exact .nil
  | @cons r l rs L hl hL ih =>
    rw [List.nodup_cons] at hn
    refine .cons (fun l' hl' y hy hy' => ?_) (ih hn.2)
    have hget := List.forall₂_iff_get.1 hL
    obtain ⟨r', h1, h2⟩ : ∃ r' ∈ rs, ListsClass R O r' l' := by
      obtain ⟨k, hk⟩ := List.mem_iff_get.1 hl'
      exact ⟨rs.get ⟨k, by rw [hget.1]; exact k.2⟩, List.get_mem _ _, by rw [← hk]; exact hget.2 _ _ _⟩
    have e1 := ((hl.2 y).1 hy).2
    have e2 := ((h2.2 y).1 hy').2
    exact hn.1 (by rw [← e1, e2]; exact h1)

/-- `cliques()` after `closure()`: nonempty increasing lists without common elements; each is the class of its elements
for mutual reachability, and every element that lies on a cycle is in one of them. -/
theorem C31_cliques (nd : Bool) (ls : List (List Nat)) (h : Proper ls) :
    ∃ p q L, ofLists nd ls = .ok p ∧ closure nd p = .ok q ∧ cliques nd q = .ok L ∧
      (∀ l ∈ L, l ≠ [] ∧ l.Pairwise (· < ·) ∧ ∀ x ∈ l, ∀ y, y ∈ l ↔ Path ls x y ∧ Path ls y x) ∧
      (∀ x, Path ls x x → ∃ l ∈ L, x ∈ l) ∧ L.Pairwise List.Disjoint := by
  obtain ⟨d, e, hr⟩ := ofLists_rows nd ls h
  obtain ⟨d', R, O, e2, hi, hD⟩ := closure_rows nd hr (edge_iff ls)
  have hE := hr.edge (edge_iff ls)
  obtain ⟨L, e3, hL⟩ := cliquesLoop_spec hi ls.length 0 (by omega)
  have hpl : ∀ x y, Path ls x y → x < ls.length ∧ y < ls.length := by
    intro x y hp
    obtain ⟨z, hz, -⟩ := TransGen.head'_iff.1 hp
    obtain ⟨w, -, hw⟩ := TransGen.tail'_iff.1 hp
    exact ⟨(hE x z hz).1, (hE w y hw).2⟩
  have hroots : ∀ r, r ∈ (List.range' 0 ls.length).filter (fun r => decide (R r = r ∧ r ∈ O r)) ↔
      r < ls.length ∧ R r = r ∧ r ∈ O r := by
    intro r
    rw [List.mem_filter, List.mem_range'_1, decide_eq_true_eq]
    simp
  have hget := List.forall₂_iff_get.1 hL
  refine ⟨_, _, L, e, e2, by rw [cliques, Res.assertIn_bind nd rfl, hi.len, e3], fun l hl => ?_, fun x hx => ?_,
    classes_disjoint hL ((List.nodup_range' ).filter _)⟩
  · obtain ⟨k, hk⟩ := List.mem_iff_get.1 hl
    have hk' : k.1 < ((List.range' 0 ls.length).filter (fun r => decide (R r = r ∧ r ∈ O r))).length := by
      rw [hget.1]; exact k.2
    have hc := hget.2 k.1 hk' k.2
    rw [show L.get ⟨k.1, k.2⟩ = l from hk] at hc
    obtain ⟨hr1, hr2, hr3⟩ := (hroots _).1 (List.get_mem _ ⟨k.1, hk'⟩)
    generalize ((List.range' 0 ls.length).filter (fun r => decide (R r = r ∧ r ∈ O r))).get ⟨k.1, hk'⟩ = r at hc hr1 hr2 hr3
    refine ⟨fun hn => ?_, hc.1, fun x hx y => ?_⟩
    · have := (hc.2 r).2 ⟨hr3, hr2⟩
      rw [hn] at this; simp at this
    · obtain ⟨hx1, hx2⟩ := (hc.2 x).1 hx
      have hxn := hi.memlt hr1 hr2 hx1
      have prx : Path ls r x := (hi.closed hD hE hr1).1 (by rw [hr2]; exact hx1)
      have prr : Path ls r r := (hi.closed hD hE hr1).1 (by rw [hr2]; exact hr3)
      have pxr : Path ls x r := hi.fromRoot hxn (by rw [hx2]; exact prr)
      rw [hc.2]
      constructor
      · rintro ⟨hy1, hy2⟩
        have hyn := hi.memlt hr1 hr2 hy1
        have pry : Path ls r y := (hi.closed hD hE hr1).1 (by rw [hr2]; exact hy1)
        have pyr : Path ls y r := hi.fromRoot hyn (by rw [hy2]; exact prr)
        exact ⟨pxr.trans pry, pyr.trans prx⟩
      · rintro ⟨h1, h2⟩
        have hyn := (hpl x y h1).2
        have := hi.classes hD hE hxn hyn h1 h2
        refine ⟨?_, by rw [← this]; exact hx2⟩
        have hz := (hi.closed hD hE hr1).2 (prx.trans h1)
        rwa [hr2] at hz
  · have hxn := (hpl x x hx).1
    have hrx : R x ∈ O (R x) := (hi.closed hD hE hxn).2 (hi.toRoot hxn hx)
    have hmem := (hroots (R x)).2 ⟨hi.rlt x hxn, hi.idem hxn, hrx⟩
    obtain ⟨k, hk⟩ := List.mem_iff_get.1 hmem
    have hk' : k.1 < L.length := by rw [← hget.1]; exact k.2
    have hc := hget.2 k.1 k.2 hk'
    rw [show List.get _ ⟨k.1, k.2⟩ = R x from hk] at hc
    exact ⟨_, List.get_mem L ⟨k.1, hk'⟩, (hc.2 x).2 ⟨(hi.closed hD hE hxn).2 hx, rfl⟩⟩

/-! ### Reversal -/

theorem revRow_spec (nd : Bool) {A : Nat → Finset Nat} {r : List Entry} (h : Rows n r A) {i : Nat} (hi : i < n) (l : List Nat)
    (hl : ∀ x ∈ l, x < n) :
    ∃ r' A', revRow nd i l r = .ok r' ∧ Rows n r' A' ∧ ∀ x y, y ∈ A' x ↔ y ∈ A x ∨ (y = i ∧ x ∈ l) := by
  induction l generalizing r A with
  | nil => exact ⟨r, A, rfl, h, by simp⟩
  | cons x l ih =>
    have hx := hl x List.mem_cons_self
    obtain ⟨b, g, rb⟩ := h.row x hx
    obtain ⟨b', e1, rb'⟩ := C19_insert nd rb hi
    have hxl : x < r.length := by rw [h.len]; exact hx
    have hg : Vec.get r x = .ok ⟨b, x⟩ := by rw [Vec.get, g]
    have h1 : Rows n (r.set x ⟨b', x⟩) (Function.update A x (Insert.insert i (A x))) := by
      refine ⟨by simp [h.len], h.small, fun z hz => ?_⟩
      by_cases hzx : z = x
      · subst hzx
        exact ⟨b', List.getElem?_set_self hxl, by rw [Function.update_self]; exact rb'⟩
      · rw [List.getElem?_set_ne (fun h => hzx h.symm), Function.update_of_ne hzx]
        exact h.row z hz
    obtain ⟨r', A', e2, h2, hA⟩ := ih h1 fun y hy => hl y (List.mem_cons_of_mem _ hy)
    refine ⟨r', A', ?_, h2, fun z y => ?_⟩
    · rw [revRow, hg, Res.ok_bind, e1, Res.ok_bind, Vec.put_ok hxl, Res.ok_bind, e2]
    · rw [hA, List.mem_cons]
      by_cases hzx : z = x
      · subst hzx
        rw [Function.update_self, Finset.mem_insert]
        tauto
      · rw [Function.update_of_ne hzx]
        tauto

theorem revLoop_spec (nd : Bool) {A : Nat → Finset Nat} (i : Nat) (ds : List Entry) (hds : i + ds.length = n)
    (hrow : ∀ (j : Nat) (e : Entry), ds[j]? = some e → Rep e.out n (O (i + j))) {r : List Entry} (h : Rows n r A) :
    ∃ r' A', revLoop nd i ds r = .ok r' ∧ Rows n r' A' ∧ ∀ x y, y ∈ A' x ↔ y ∈ A x ∨ (i ≤ y ∧ y < n ∧ x ∈ O y) := by
  induction ds generalizing i r A with
  | nil =>
    refine ⟨r, A, rfl, h, fun x y => ⟨.inl, ?_⟩⟩
    rintro (h1 | ⟨h1, h2, -⟩)
    · exact h1
    · simp at hds; omega
  | cons e ds ih =>
    simp only [List.length_cons] at hds
    have o := hrow 0 e (by simp)
    rw [Nat.add_zero] at o
    obtain ⟨l, e1, -, l2⟩ := C19_elements o
    obtain ⟨r1, A1, e2, h2, hA1⟩ := revRow_spec nd h (i := i) (by omega) l (fun x hx => o.sub x ((l2 x).1 hx))
    obtain ⟨r', A', e3, h3, hA'⟩ := ih (i+1) (by omega) (fun j e he => by
      have := hrow (j+1) e (by simpa using he)
      rwa [show i + (j + 1) = i + 1 + j by omega] at this) h2
    refine ⟨r', A', by rw [revLoop, e1, Res.ok_bind, e2, Res.ok_bind, e3], h3, fun x y => ?_⟩
    rw [hA', hA1, l2]
    constructor
    · rintro ((h4 | ⟨rfl, h4⟩) | ⟨h4, h5, h6⟩)
      · exact .inl h4
      · exact .inr ⟨Nat.le_refl _, by omega, h4⟩
      · exact .inr ⟨by omega, h5, h6⟩
    · rintro (h4 | ⟨h4, h5, h6⟩)
      · exact .inl (.inl h4)
      · by_cases hy : y = i
        · subst hy; exact .inl (.inr ⟨rfl, h6⟩)
        · exact .inr ⟨by omega, h5, h6⟩

theorem reversed_rows (nd : Bool) (h : Rows n d O) (ready : Bool) :
    ∃ d' A, reversed nd ⟨d, ready⟩ = .ok ⟨d', ready⟩ ∧ Rows n d' A ∧ ∀ x y, y ∈ A x ↔ y < n ∧ x ∈ O y := by
  have h0 : Rows n (make n).data (fun _ => ∅) := by
    refine ⟨by simp [make], h.small, fun x hx => ⟨BitMap.make n, by simp [make, hx], C19_make ?_⟩⟩
    have := h.small; omega
  obtain ⟨r, A, e, hr, hA⟩ := revLoop_spec (O := O) nd 0 d (by rw [h.len]; omega) (fun j e he => by
    have hj : j < n := by rw [← h.len]; exact (List.getElem?_eq_some_iff.1 he).1
    obtain ⟨b, h1, h2⟩ := h.row j hj
    rw [h1] at he; cases he
    simpa using h2) h0
  have hz : r.zipWith (fun a d => ({ a with ref := d.ref } : Entry)) d = r := by
    apply List.ext_getElem?
    intro j
    rw [List.getElem?_zipWith]
    by_cases hj : j < n
    · obtain ⟨b, h1, -⟩ := h.row j hj
      obtain ⟨b', h2, -⟩ := hr.row j hj
      rw [h1, h2]
    · rw [List.getElem?_eq_none (l := r) (by rw [hr.len]; omega)]
  refine ⟨r, A, ?_, hr, fun x y => by rw [hA]; simp⟩
  rw [reversed]
  simp only
  rw [h.len, e, Res.ok_bind, hz]
  cases ready <;> rfl

theorem path_swap (E' : Nat → Nat → Prop) (h : ∀ x y, E' x y ↔ E y x) (x y : Nat) : TransGen E' x y ↔ TransGen E y x := by
  have : E' = Function.swap E := by funext a b; exact propext (h a b)
  rw [this, Relation.transGen_swap]

/-- Reversing before taking the closure: the pairs are reversed, and so are the paths. -/
theorem C31_reversed (nd : Bool) (ls : List (List Nat)) (h : Proper ls) :
    ∃ p q s, ofLists nd ls = .ok p ∧ reversed nd p = .ok q ∧ closure nd q = .ok s ∧
      (∀ x y, ∃ b, relates q x y = .ok b ∧ (b = true ↔ Edge ls y x)) ∧
      (∀ x y, ∃ b, relates s x y = .ok b ∧ (b = true ↔ Path ls y x)) := by
  obtain ⟨d, e, hr⟩ := ofLists_rows nd ls h
  obtain ⟨d', A, e2, hr2, hA⟩ := reversed_rows nd hr false
  have hE : ∀ x y, Edge ls y x ↔ x < ls.length ∧ y ∈ A x := by
    intro x y
    rw [hA]
    constructor
    · intro hxy; exact ⟨h.2 y x hxy, (edge_iff ls y x).1 hxy⟩
    · intro hxy; exact (edge_iff ls y x).2 hxy.2
  obtain ⟨d3, R, O, e3, hi, hD⟩ := closure_rows nd hr2 (E := fun x y => Edge ls y x) hE
  refine ⟨_, _, _, e, e2, e3, fun x y => ⟨_, relates_spec (hr2.inv hE) _ x y, ?_⟩,
    fun x y => ⟨_, relates_spec hi _ x y, ?_⟩⟩
  · rw [decide_eq_true_eq, hE]; rfl
  · rw [decide_eq_true_eq]
    have hE' := hr2.edge hE
    rw [Path, ← path_swap (E := Edge ls) (fun x y => Edge ls y x) (fun _ _ => Iff.rfl)]
    constructor
    · rintro ⟨h1, h2⟩
      exact (hi.closed hD hE' h1).1 h2
    · intro hp
      have hx : x < ls.length := by
        obtain ⟨z, hz, -⟩ := TransGen.head'_iff.1 hp
        exact (hE' x z hz).1
      exact ⟨hx, (hi.closed hD hE' hx).2 hp⟩

/-- Reversing after taking the closure is right when there are no two different mutually reachable elements.
What is missing for the full statement is false: see `C31_reversed_closed_false`. -/
theorem C31_reversed_closed_partial (nd : Bool) (ls : List (List Nat)) (h : Proper ls)
    (hac : ∀ x y, Path ls x y → Path ls y x → x = y) :
    ∃ p q s, ofLists nd ls = .ok p ∧ closure nd p = .ok q ∧ reversed nd q = .ok s ∧
      ∀ x y, ∃ b, relates s x y = .ok b ∧ (b = true ↔ Path ls y x) := by
  obtain ⟨d, e, hr⟩ := ofLists_rows nd ls h
  obtain ⟨d', R, O, e2, hi, hD⟩ := closure_rows nd hr (edge_iff ls)
  have hE := hr.edge (edge_iff ls)
  have hR : ∀ v < ls.length, R v = v := by
    intro v hv
    by_contra hn
    obtain ⟨h1, h2⟩ := hi.equiv v hv (fun h => hn h.symm)
    exact hn (hac _ _ h2 h1)
  have hrows : Rows ls.length d' O := by
    refine ⟨hi.len, h.1, fun x hx => ?_⟩
    obtain ⟨en, -, g, r, o⟩ := hi.repr hx (hR x hx)
    obtain ⟨b, rf⟩ := en
    simp only at r o
    subst r
    exact ⟨b, g, o⟩
  obtain ⟨d3, A, e3, hr3, hA⟩ := reversed_rows nd hrows true
  refine ⟨_, _, _, e, e2, e3, fun x y => ⟨_, relates_spec (hr3.inv (E := fun x y => x < ls.length ∧ y ∈ A x) (by simp)) _ x y, ?_⟩⟩
  rw [decide_eq_true_eq]
  change x < ls.length ∧ y ∈ A x ↔ _
  rw [hA]
  constructor
  · rintro ⟨h1, h2, h3⟩
    exact (hi.closed hD hE h2).1 (by rw [hR y h2]; exact h3)
  · intro hp
    obtain ⟨z, hz, -⟩ := TransGen.head'_iff.1 hp
    obtain ⟨w, -, hw⟩ := TransGen.tail'_iff.1 hp
    have hy := (hE y z hz).1
    have := (hi.closed hD hE hy).2 hp
    rw [hR y hy] at this
    exact ⟨(hE w x hw).2, hy, this⟩

/-- Reversing after `closure()` loses relations when there is a cycle: element 0 of a cycle of length two is no
longer related to itself (finding F16). -/
theorem C31_reversed_closed_false : ∃ ls p q s, Proper ls ∧ ofLists false ls = .ok p ∧ closure false p = .ok q ∧
    reversed false q = .ok s ∧ Path ls 0 0 ∧ relates s 0 0 = .ok false := by
  refine ⟨[[1], [0]], ⟨[⟨⟨2, [2]⟩, 0⟩, ⟨⟨2, [1]⟩, 1⟩], false⟩, ⟨[⟨⟨0, []⟩, 1⟩, ⟨⟨2, [3]⟩, 1⟩], true⟩,
    ⟨[⟨⟨2, [2]⟩, 1⟩, ⟨⟨2, [2]⟩, 1⟩], true⟩, ⟨by decide, ?_⟩, by decide +kernel, by decide +kernel, by decide +kernel, ?_, by decide +kernel⟩
  · rintro x y ⟨l, hl, hy⟩
    match x with
    | 0 => simp at hl; subst hl; simp at hy; subst hy; decide
    | 1 => simp at hl; subst hl; simp at hy; subst hy; decide
    | x + 2 => simp at hl
  · exact TransGen.tail (b := 1) (.single ⟨[1], rfl, List.mem_cons_self⟩) ⟨[0], rfl, List.mem_cons_self⟩

/-! ### A concrete instance -/

/-- edges 0 → 1 → 2 → 0, 2 → 3, 3 → 3, 4 → 0 -/
def sample : List (List Nat) := [[1], [2], [0, 3], [3], [0]]

theorem sample_proper : Proper sample := by
  refine ⟨by decide, ?_⟩
  rintro x y ⟨l, hl, hy⟩
  match x with
  | 0 => simp [sample] at hl; subst hl; simp at hy; subst hy; decide
  | 1 => simp [sample] at hl; subst hl; simp at hy; subst hy; decide
  | 2 => simp [sample] at hl; subst hl; simp at hy; rcases hy with rfl | rfl <;> decide
  | 3 => simp [sample] at hl; subst hl; simp at hy; subst hy; decide
  | 4 => simp [sample] at hl; subst hl; simp at hy; subst hy; decide
  | x + 5 => simp [sample] at hl

example : (do cliques false (← closure false (← ofLists false sample))) = .ok [[0, 1, 2], [3]] := by decide +kernel

example : ∀ x y, Path [[1], []] x y → Path [[1], []] y x → x = y := by
  have hlt : ∀ x y, Path [[1], []] x y → x < y := by
    intro x y h
    induction h with
    | single h => obtain ⟨l, hl, hy⟩ := h
                  match x with
                  | 0 => simp at hl; subst hl; simp at hy; omega
                  | 1 => simp at hl; subst hl; simp at hy
                  | x + 2 => simp at hl
    | @tail b c _ h ih => obtain ⟨l, hl, hy⟩ := h
                          match b with
                          | 0 => omega
                          | 1 => simp at hl; subst hl; simp at hy
                          | x + 2 => simp at hl
  intro x y h1 h2
  have := hlt x y h1
  have := hlt y x h2
  omega

end Verif.Pre
