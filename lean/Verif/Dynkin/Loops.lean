import Verif.Dynkin.Comps
import Verif.Dynkin.Std

/-! The loops that look for forks, extremities and labelled edges of a component. -/

namespace Verif.Dynkin

open Verif.Weyl (Ty)

theorem degrees_cons (d : Diagram) (i : ℕ) (l : List ℕ) (fork : Option ℕ) (ext : List ℕ) :
    degrees d (i :: l) fork ext =
      if (d.nbrs i).length ≠ 2 then
        if (d.nbrs i).length < 2 then degrees d l fork (ext ++ [i])
        else if (d.nbrs i).length = 3 then
          match fork with
          | none => degrees d l (some i) ext
          | some _ => .throw
        else .throw
      else degrees d l fork ext := rfl

theorem labels_cons (S : List ℕ) (i j : ℕ) (m : Int) (l : List ((ℕ × ℕ) × Int))
    (e : Option (ℕ × ℕ)) :
    labels S (((i, j), m) :: l) e =
      if i ∈ S then
        if m = 3 then .throw
        else
          match e with
          | none => labels S l (some (i, j))
          | some _ => .throw
      else labels S l e := rfl

/-- the result of the loop over the degrees -/
theorem degrees_spec (d : Diagram) : ∀ (S : List ℕ) (fork : Option ℕ) (ext : List ℕ),
    (∃ fork', degrees d S fork ext =
        .ok (fork', ext ++ S.filter (fun i => decide ((d.nbrs i).length < 2))) ∧
      (∀ i ∈ S, (d.nbrs i).length ≤ 3) ∧
      ((fork' = fork ∧ ∀ i ∈ S, (d.nbrs i).length ≠ 3) ∨
        (fork = none ∧ ∃ f ∈ S, fork' = some f ∧ (d.nbrs f).length = 3 ∧
          ∀ i ∈ S, (d.nbrs i).length = 3 → i = f))) ∨
    (degrees d S fork ext = .throw ∧ ((∃ i ∈ S, (d.nbrs i).length > 3) ∨
      (fork ≠ none ∧ ∃ i ∈ S, (d.nbrs i).length = 3) ∨ ¬ S.Nodup ∨
      ∃ i ∈ S, ∃ j ∈ S, i ≠ j ∧ (d.nbrs i).length = 3 ∧ (d.nbrs j).length = 3)) := by
  intro S
  induction S with
  | nil =>
    intro fork ext
    exact Or.inl ⟨fork, by simp [degrees], by simp, Or.inl ⟨rfl, by simp⟩⟩
  | cons a S ih =>
    intro fork ext
    rw [degrees_cons]
    by_cases h2 : (d.nbrs a).length = 2
    · rw [if_neg (by simpa using h2)]
      rcases ih fork ext with ⟨f', k1, k2, k3⟩ | ⟨k1, k2⟩
      · refine Or.inl ⟨f', by rw [k1]; simp [h2], ?_, ?_⟩
        · intro i hi
          rcases List.mem_cons.1 hi with e | e
          · subst e; omega
          · exact k2 i e
        · rcases k3 with ⟨k3, k4⟩ | ⟨k3, f, hf, k4, k5, k6⟩
          · refine Or.inl ⟨k3, ?_⟩
            intro i hi
            rcases List.mem_cons.1 hi with e | e
            · subst e; omega
            · exact k4 i e
          · refine Or.inr ⟨k3, f, by simp [hf], k4, k5, ?_⟩
            intro i hi h3
            rcases List.mem_cons.1 hi with e | e
            · subst e; omega
            · exact k6 i e h3
      · refine Or.inr ⟨k1, ?_⟩
        rcases k2 with ⟨i, hi, h⟩ | ⟨h, i, hi, h'⟩ | h | ⟨i, hi, j, hj, h⟩
        · exact Or.inl ⟨i, by simp [hi], h⟩
        · exact Or.inr (Or.inl ⟨h, i, by simp [hi], h'⟩)
        · exact Or.inr (Or.inr (Or.inl fun h' => h (List.nodup_cons.1 h').2))
        · exact Or.inr (Or.inr (Or.inr ⟨i, by simp [hi], j, by simp [hj], h⟩))
    · rw [if_pos h2]
      by_cases h1 : (d.nbrs a).length < 2
      · rw [if_pos h1]
        rcases ih fork (ext ++ [a]) with ⟨f', k1, k2, k3⟩ | ⟨k1, k2⟩
        · refine Or.inl ⟨f', by rw [k1, List.filter_cons, if_pos (by simpa using h1)]; simp, ?_, ?_⟩
          · intro i hi
            rcases List.mem_cons.1 hi with e | e
            · subst e; omega
            · exact k2 i e
          · rcases k3 with ⟨k3, k4⟩ | ⟨k3, f, hf, k4, k5, k6⟩
            · refine Or.inl ⟨k3, ?_⟩
              intro i hi
              rcases List.mem_cons.1 hi with e | e
              · subst e; omega
              · exact k4 i e
            · refine Or.inr ⟨k3, f, by simp [hf], k4, k5, ?_⟩
              intro i hi h3
              rcases List.mem_cons.1 hi with e | e
              · subst e; omega
              · exact k6 i e h3
        · refine Or.inr ⟨k1, ?_⟩
          rcases k2 with ⟨i, hi, h⟩ | ⟨h, i, hi, h'⟩ | h | ⟨i, hi, j, hj, h⟩
          · exact Or.inl ⟨i, by simp [hi], h⟩
          · exact Or.inr (Or.inl ⟨h, i, by simp [hi], h'⟩)
          · exact Or.inr (Or.inr (Or.inl fun h' => h (List.nodup_cons.1 h').2))
          · exact Or.inr (Or.inr (Or.inr ⟨i, by simp [hi], j, by simp [hj], h⟩))
      · rw [if_neg h1]
        by_cases h3 : (d.nbrs a).length = 3
        · rw [if_pos h3]
          cases fork with
          | some f =>
            exact Or.inr ⟨rfl, Or.inr (Or.inl ⟨by simp, a, by simp, h3⟩)⟩
          | none =>
            dsimp only
            rcases ih (some a) ext with ⟨f', k1, k2, k3⟩ | ⟨k1, k2⟩
            · refine Or.inl ⟨f', by rw [k1]; simp [h3], ?_, ?_⟩
              · intro i hi
                rcases List.mem_cons.1 hi with e | e
                · subst e; omega
                · exact k2 i e
              · rcases k3 with ⟨k3, k4⟩ | ⟨k3, f, hf, k4, k5, k6⟩
                · refine Or.inr ⟨rfl, a, by simp, k3, h3, ?_⟩
                  intro i hi h
                  rcases List.mem_cons.1 hi with e | e
                  · exact e
                  · exact absurd h (k4 i e)
                · simp at k3
            · refine Or.inr ⟨k1, ?_⟩
              rcases k2 with ⟨i, hi, h⟩ | ⟨h, i, hi, h'⟩ | h | ⟨i, hi, j, hj, h⟩
              · exact Or.inl ⟨i, by simp [hi], h⟩
              · by_cases e : a = i
                · subst e
                  exact Or.inr (Or.inr (Or.inl fun h => (List.nodup_cons.1 h).1 hi))
                · exact Or.inr (Or.inr (Or.inr ⟨a, by simp, i, by simp [hi], e, h3, h'⟩))
              · exact Or.inr (Or.inr (Or.inl fun h' => h (List.nodup_cons.1 h').2))
              · exact Or.inr (Or.inr (Or.inr ⟨i, by simp [hi], j, by simp [hj], h⟩))
        · rw [if_neg h3]
          exact Or.inr ⟨rfl, Or.inl ⟨a, by simp, by omega⟩⟩

/-- the result of the loop over the labelled edges -/
theorem labels_spec (S : List ℕ) : ∀ (l : List ((ℕ × ℕ) × Int)) (e : Option (ℕ × ℕ)), l.Nodup →
    (∃ e', labels S l e = .ok e' ∧ (∀ x ∈ l, x.1.1 ∈ S → x.2 ≠ 3) ∧
      ((e' = e ∧ ∀ x ∈ l, x.1.1 ∉ S) ∨
        (e = none ∧ ∃ x ∈ l, x.1.1 ∈ S ∧ e' = some x.1 ∧ ∀ y ∈ l, y.1.1 ∈ S → y = x))) ∨
    (labels S l e = .throw ∧ ((∃ x ∈ l, x.1.1 ∈ S ∧ x.2 = 3) ∨
      (e ≠ none ∧ ∃ x ∈ l, x.1.1 ∈ S) ∨
      ∃ x ∈ l, ∃ y ∈ l, x ≠ y ∧ x.1.1 ∈ S ∧ y.1.1 ∈ S)) := by
  intro l
  induction l with
  | nil => intro e _; exact Or.inl ⟨e, rfl, by simp, Or.inl ⟨rfl, by simp⟩⟩
  | cons a l ih =>
    intro e hn
    rw [List.nodup_cons] at hn
    obtain ⟨⟨i, j⟩, m⟩ := a
    rw [labels_cons]
    by_cases hi : i ∈ S
    · rw [if_pos hi]
      by_cases h3 : m = 3
      · rw [if_pos h3]
        exact Or.inr ⟨rfl, Or.inl ⟨((i, j), m), by simp, hi, h3⟩⟩
      · rw [if_neg h3]
        cases e with
        | some e =>
          exact Or.inr ⟨rfl, Or.inr (Or.inl ⟨by simp, ((i, j), m), by simp, hi⟩)⟩
        | none =>
          dsimp only
          rcases ih (some (i, j)) hn.2 with ⟨e', k1, k2, k3⟩ | ⟨k1, k2⟩
          · refine Or.inl ⟨e', k1, ?_, ?_⟩
            · intro x hx hxS
              rcases List.mem_cons.1 hx with e | e
              · subst e; exact h3
              · exact k2 x e hxS
            · rcases k3 with ⟨k3, k4⟩ | ⟨k3, -⟩
              · refine Or.inr ⟨rfl, ((i, j), m), by simp, hi, k3, ?_⟩
                intro y hy hyS
                rcases List.mem_cons.1 hy with e | e
                · exact e
                · exact absurd hyS (k4 y e)
              · simp at k3
          · refine Or.inr ⟨k1, ?_⟩
            rcases k2 with ⟨x, hx, h, h'⟩ | ⟨h, x, hx, h'⟩ | ⟨x, hx, y, hy, h, h', h''⟩
            · exact Or.inl ⟨x, by simp [hx], h, h'⟩
            · refine Or.inr (Or.inr ⟨((i, j), m), by simp, x, by simp [hx], ?_, hi, h'⟩)
              intro e; subst e; exact hn.1 hx
            · exact Or.inr (Or.inr ⟨x, by simp [hx], y, by simp [hy], h, h', h''⟩)
    · rw [if_neg hi]
      rcases ih e hn.2 with ⟨e', k1, k2, k3⟩ | ⟨k1, k2⟩
      · refine Or.inl ⟨e', k1, ?_, ?_⟩
        · intro x hx hxS
          rcases List.mem_cons.1 hx with e | e
          · subst e; exact absurd hxS hi
          · exact k2 x e hxS
        · rcases k3 with ⟨k3, k4⟩ | ⟨k3, x, hx, k4, k5, k6⟩
          · refine Or.inl ⟨k3, ?_⟩
            intro y hy hyS
            rcases List.mem_cons.1 hy with e | e
            · subst e; exact hi hyS
            · exact k4 y e hyS
          · refine Or.inr ⟨k3, x, by simp [hx], k4, k5, ?_⟩
            intro y hy hyS
            rcases List.mem_cons.1 hy with e | e
            · subst e; exact absurd hyS hi
            · exact k6 y e hyS
      · refine Or.inr ⟨k1, ?_⟩
        rcases k2 with ⟨x, hx, h, h'⟩ | ⟨h, x, hx, h'⟩ | ⟨x, hx, y, hy, h, h', h''⟩
        · exact Or.inl ⟨x, by simp [hx], h, h'⟩
        · exact Or.inr (Or.inl ⟨h, x, by simp [hx], h'⟩)
        · exact Or.inr (Or.inr ⟨x, by simp [hx], y, by simp [hy], h, h', h''⟩)

/-- a component of the diagram of a matrix -/
structure Piece (n : ℕ) (c : ℕ → ℕ → Int) (d : Diagram) (S : List ℕ) : Prop where
  good : Good n c d
  nodup : S.Nodup
  ne : S ≠ []
  lt : ∀ x ∈ S, x < n
  closed : ∀ x ∈ S, ∀ y, AdjN n c x y → y ∈ S
  conn : Conn (AdjN n c) S

/-- after renumbering by `pos` the matrix is, on `S`, a standard Cartan matrix -/
structure Fits (c : ℕ → ℕ → Int) (S : List ℕ) (ty : Ty) (pos : List ℕ) : Prop where
  rank : ty.RankOK S.length
  perm : pos.Perm S
  entry : ∀ i j s t, pos[i]? = some s → pos[j]? = some t → c s t = cartan ty S.length i j

section
variable {n : ℕ} {c : ℕ → ℕ → Int} {d : Diagram} {S : List ℕ}

theorem Piece.sym (_h : Piece n c d S) : ∀ a b, AdjN n c a b → AdjN n c b a :=
  fun _ _ => AdjN.symm _h.good.pre

theorem Piece.deg_le1 (h : Piece n c d S) {x : ℕ} (hx : x ∈ S) :
    (d.nbrs x).length < 2 ↔ Le1 (AdjN n c) S x := by
  have hn := h.good.nodup_nbrs x
  have hm := h.good.mem_nbrs x
  constructor
  · intro hl y _ z _ hy hz
    rw [← hm] at hy hz
    match hd : d.nbrs x, hl with
    | [], _ => rw [hd] at hy; simp at hy
    | [a], _ => rw [hd] at hy hz; simp at hy hz; omega
  · intro hl
    by_contra hc
    match hd : d.nbrs x, hc with
    | a :: b :: l, _ =>
      have ha := (hm a).1 (by rw [hd]; simp)
      have hb := (hm b).1 (by rw [hd]; simp)
      have := hl a (h.closed x hx a ha) b (h.closed x hx b hb) ha hb
      rw [hd] at hn; simp [this] at hn
    | [], hc => simp at hc
    | [a], hc => simp at hc

theorem Piece.deg_le2 (h : Piece n c d S) {x : ℕ} (hl : (d.nbrs x).length ≤ 2) (R : List ℕ) :
    Le2 (AdjN n c) R x := by
  have hm := h.good.mem_nbrs x
  intro y _ z _ w _ hy hz hw
  rw [← hm] at hy hz hw
  match hd : d.nbrs x, hl with
  | [], _ => rw [hd] at hy; simp at hy
  | [a], _ => rw [hd] at hy hz; simp at hy hz; omega
  | [a, b], _ => rw [hd] at hy hz hw; simp at hy hz hw; omega

theorem Piece.deg3 (h : Piece n c d S) {x : ℕ} (hl : (d.nbrs x).length = 3) :
    ∃ p q r, p ≠ q ∧ p ≠ r ∧ q ≠ r ∧ ∀ y, AdjN n c x y ↔ y = p ∨ y = q ∨ y = r := by
  have hm := h.good.mem_nbrs x
  have hn := h.good.nodup_nbrs x
  match hd : d.nbrs x, hl with
  | [p, q, r], _ =>
    rw [hd] at hn
    simp at hn
    refine ⟨p, q, r, hn.1.1, hn.1.2, hn.2, ?_⟩
    intro y; rw [← hm, hd]; simp

theorem Piece.deg4 (h : Piece n c d S) {x : ℕ} (hl : (d.nbrs x).length > 3) :
    ∃ p q r s, p ≠ q ∧ p ≠ r ∧ p ≠ s ∧ q ≠ r ∧ q ≠ s ∧ r ≠ s ∧ AdjN n c x p ∧ AdjN n c x q ∧
      AdjN n c x r ∧ AdjN n c x s := by
  have hm := h.good.mem_nbrs x
  have hn := h.good.nodup_nbrs x
  match hd : d.nbrs x, hl with
  | p :: q :: r :: s :: l, _ =>
    rw [hd] at hn
    simp at hn
    exact ⟨p, q, r, s, by tauto, by tauto, by tauto, by tauto, by tauto, by tauto,
      (hm p).1 (by rw [hd]; simp), (hm q).1 (by rw [hd]; simp), (hm r).1 (by rw [hd]; simp),
      (hm s).1 (by rw [hd]; simp)⟩

end

end Verif.Dynkin
