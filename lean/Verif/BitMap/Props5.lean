import Verif.BitMap.Props4
/-
Property theorem C19 for histories: any sequence of operations keeps a `BitMap` in agreement
with the mathematical set subjected to the same sequence of set operations.
-/
namespace Verif.BitMap
open Verif.Bits

/-- an operation on a bitmap; the second operands of binary operations are bitmaps -/
inductive Op where
  | insert (n : Nat)
  | remove (n : Nat)
  | flip (n : Nat)
  | setTo (n : Nat) (v : Bool)
  | fill
  | reset
  | complement
  | fillRange (x y : Nat)
  | clearRange (x y : Nat)
  | inter (b : BitMap)
  | union (b : BitMap)
  | xor (b : BitMap)
  | andnot (b : BitMap)
  | setCapacity (n : Nat)
  | extendCapacity (v : Bool)

/-- performing an operation on the model -/
def Op.run (nd : Bool) (b : BitMap) : Op → Res BitMap
  | .insert n => BitMap.insert nd b n
  | .remove n => BitMap.remove nd b n
  | .flip n => BitMap.flip nd b n
  | .setTo n v => BitMap.setTo nd b n v
  | .fill => fillAll b
  | .reset => .ok (BitMap.reset b)
  | .complement => BitMap.complement b
  | .fillRange x y => BitMap.fillRange b x y
  | .clearRange x y => BitMap.clearRange b x y
  | .inter a => do return (← andAssign nd b a).2
  | .union a => orAssign nd b a
  | .xor a => xorAssign nd b a
  | .andnot a => BitMap.andnot nd b a
  | .setCapacity n => BitMap.setCapacity b n
  | .extendCapacity v => BitMap.extendCapacity nd b v

/-- what the operation means for a capacity and a set: `Means c S op c' S'` says that `op` is
permitted for a subset `S` of `[0,c)`, and should give the subset `S'` of `[0,c')` -/
inductive Op.Means : Nat → Finset Nat → Op → Nat → Finset Nat → Prop where
  | insert {c S n} : n < c → Means c S (.insert n) c (Insert.insert n S)
  | remove {c S n} : n < c → Means c S (.remove n) c (S.erase n)
  | flip_in {c S n} : n < c → n ∈ S → Means c S (.flip n) c (S.erase n)
  | flip_out {c S n} : n < c → n ∉ S → Means c S (.flip n) c (Insert.insert n S)
  | set_true {c S n} : n < c → Means c S (.setTo n true) c (Insert.insert n S)
  | set_false {c S n} : n < c → Means c S (.setTo n false) c (S.erase n)
  | fill {c S} : Means c S .fill c (Finset.range c)
  | reset {c S} : Means c S .reset c ∅
  | complement {c S} : Means c S .complement c (Finset.range c \ S)
  | fillRange {c S x y} : y ≤ c → Means c S (.fillRange x y) c (S ∪ Finset.Ico x y)
  | clearRange {c S x y} : y ≤ c → Means c S (.clearRange x y) c (S \ Finset.Ico x y)
  | inter {c S a d T} : Rep a d T → d ≤ c → Means c S (.inter a) c (S ∩ T)
  | union {c S a d T} : Rep a d T → d ≤ c → Means c S (.union a) c (S ∪ T)
  | xor {c S a d T} : Rep a d T → d ≤ c → Means c S (.xor a) c ((S \ T) ∪ (T \ S))
  | andnot {c S a d T} : Rep a d T → d ≤ c → Means c S (.andnot a) c (S \ T)
  | setCapacity {c S n} : n + 64 ≤ 2 ^ 64 → Means c S (.setCapacity n) n (S.filter (· < n))
  | extend_true {c S} : c + 65 ≤ 2 ^ 64 → Means c S (.extendCapacity true) (c + 1) (Insert.insert c S)
  | extend_false {c S} : c + 65 ≤ 2 ^ 64 → Means c S (.extendCapacity false) (c + 1) S

/-- a sequence of operations on the model -/
def runAll (nd : Bool) : BitMap → List Op → Res BitMap
  | b, [] => .ok b
  | b, op :: l => do runAll nd (← op.run nd b) l

/-- a sequence of operations on capacities and sets -/
inductive MeansAll : Nat → Finset Nat → List Op → Nat → Finset Nat → Prop where
  | nil {c S} : MeansAll c S [] c S
  | cons {c S op c' S' l c'' S''} : op.Means c S c' S' → MeansAll c' S' l c'' S'' → MeansAll c S (op :: l) c'' S''

theorem op_refines (nd : Bool) {b : BitMap} {c c' : Nat} {S S' : Finset Nat} (h : Rep b c S) {op : Op}
    (ho : op.Means c S c' S') : ∃ r, op.run nd b = .ok r ∧ Rep r c' S' := by
  cases ho with
  | insert hn => exact C19_insert nd h hn
  | remove hn => exact C19_remove nd h hn
  | flip_in hn hm => have := C19_flip nd h hn; rwa [if_pos hm] at this
  | flip_out hn hm => have := C19_flip nd h hn; rwa [if_neg hm] at this
  | set_true hn => exact C19_setTo nd h hn true
  | set_false hn => exact C19_setTo nd h hn false
  | fill => exact C19_fillAll h
  | reset => exact ⟨_, rfl, C19_reset h⟩
  | complement => exact C19_complement h
  | fillRange hy => exact C19_fillRange h hy
  | clearRange hy => exact C19_clearRange h hy
  | inter ha hd =>
    obtain ⟨v, r, e, hr, -⟩ := C19_inter nd h ha hd
    exact ⟨r, by rw [Op.run, e]; rfl, hr⟩
  | union ha hd => exact C19_union nd h ha hd
  | xor ha hd => exact C19_symmDiff nd h ha hd
  | andnot ha hd => exact C19_andnot nd h ha hd
  | setCapacity hn => exact C19_setCapacity h hn
  | extend_true hc => exact C19_extendCapacity nd h hc true
  | extend_false hc => exact C19_extendCapacity nd h hc false

/-- C19: every permitted sequence of operations, starting from a new bitmap, succeeds, and
afterwards membership, size and the values seen by iteration are those of the set obtained by
the same sequence of operations on sets. -/
theorem C19_history (nd : Bool) {c c' : Nat} {S : Finset Nat} {ops : List Op} (hc : c + 64 ≤ 2 ^ 64)
    (h : MeansAll c ∅ ops c' S) :
    ∃ r, runAll nd (make c) ops = .ok r ∧ r.cap = c' ∧ (∀ n, isMember r n = .ok (decide (n ∈ S))) ∧
      size r = S.card ∧ ∃ l, elements r = .ok l ∧ l.Pairwise (· < ·) ∧ ∀ i, i ∈ l ↔ i ∈ S := by
  have key : ∀ {ops c c' S S'} {b : BitMap}, Rep b c S → MeansAll c S ops c' S' →
      ∃ r, runAll nd b ops = .ok r ∧ Rep r c' S' := by
    intro ops
    induction ops with
    | nil => intro c c' S S' b hb hm; cases hm; exact ⟨b, rfl, hb⟩
    | cons op l ih =>
      intro c c' S S' b hb hm
      cases hm with
      | cons h1 h2 =>
        obtain ⟨r, e, hr⟩ := op_refines nd hb h1
        obtain ⟨r', e', hr'⟩ := ih hr h2
        exact ⟨r', by rw [runAll, e, Res.ok_bind, e'], hr'⟩
  obtain ⟨r, e, hr⟩ := key (C19_make hc) h
  exact ⟨r, e, hr.cap, C19_isMember hr, C19_size hr, C19_elements hr⟩

/-! ### the hypotheses can be met -/

example : MeansAll 100 ∅ [.insert 70, .fillRange 3 99, .flip 70, .extendCapacity true] 101
    (Insert.insert 100 ((Insert.insert 70 ∅ ∪ Finset.Ico 3 99).erase 70)) :=
  .cons (.insert (by norm_num)) (.cons (.fillRange (by norm_num)) (.cons (.flip_in (by norm_num) (by simp))
    (.cons (.extend_true (by norm_num)) .nil)))

example : ∃ b, Rep b 200 {3, 70, 199} := by
  obtain ⟨r, -, h⟩ := C19_ofList true (c := 200) (by norm_num) (l := [3, 70, 199]) (by simp)
  exact ⟨r, by simpa using h⟩

example : elements ⟨130, [2, 0, 3]⟩ = .ok [1, 128, 129] := by decide +kernel
example : nTh ⟨130, [2, 0, 3]⟩ 1 = 128 ∧ position ⟨130, [2, 0, 3]⟩ 129 = .ok 2 := by decide +kernel
example : backUp ⟨130, [2, 0, 3]⟩ 128 = .ok (some 1) ∧ last false ⟨130, [2, 0, 3]⟩ = .ok 129 := by decide +kernel
example : setRange ⟨130, [255, 0, 0]⟩ 2 3 2 = .ok ⟨130, [235, 0, 0]⟩ ∧ range ⟨130, [235, 0, 0]⟩ 2 3 = .ok 2 := by
  decide +kernel
example : shl ⟨130, [2, 0, 0]⟩ 127 = .ok ⟨130, [0, 0, 1]⟩ ∧ shr ⟨130, [1, 1, 0]⟩ 1 = .ok ⟨130, [2 ^ 63, 0, 0]⟩ := by
  decide +kernel

end Verif.BitMap
