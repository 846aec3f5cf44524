import Verif.Db.ExactSeek

/-!
# Helper lemmas: what a branch page finds after a child has changed
-/

namespace Verif.Db

open Verif.Page

/-- What a branch page with entries `E` finds if child `c` finds `F c`. -/
def node (F : Nat → Bytes → Option Bytes) (E : List (Bytes × Nat)) (x : Bytes) : Option Bytes := F (route E x) x

/-- One pair more. -/
def upd (f : Bytes → Option Bytes) (key val x : Bytes) : Option Bytes := if x = key then some val else f x

/-- Everything of `f` is found except `lost`. -/
def Whole (fN f : Bytes → Option Bytes) (lost : Bytes → Prop) : Prop :=
  ∀ x, (lost x → fN x = none) ∧ (¬ lost x → fN x = f x)

/-- Two halves at `d` that together have `f`, except that `lost` is in neither, and `stray` is in
the right half although smaller than `d`. -/
structure Halves (fL fR f : Bytes → Option Bytes) (d : Bytes) (lost stray : Bytes → Prop) : Prop where
  sub : ∀ x, stray x → x < d
  left : ∀ x, x < d → (lost x ∨ stray x → fL x = none) ∧ (¬ (lost x ∨ stray x) → fL x = f x)
  right' : ∀ x, x < d → (stray x ∧ ¬ lost x → fR x = f x) ∧ (¬ (stray x ∧ ¬ lost x) → fR x = none)
  right : ∀ x, ¬ x < d → (lost x → fR x = none) ∧ (¬ lost x → fR x = f x)
  left' : ∀ x, ¬ x < d → fL x = none

theorem Halves.none {fL fR f : Bytes → Option Bytes} {d : Bytes} {lost stray : Bytes → Prop}
    (h : Halves fL fR f d lost stray) {x : Bytes} (hx : f x = none) : fL x = none ∧ fR x = none := by
  by_cases hd : x < d
  · constructor
    · by_cases hl : lost x ∨ stray x
      · exact (h.left x hd).1 hl
      · rw [(h.left x hd).2 hl, hx]
    · by_cases hl : stray x ∧ ¬ lost x
      · rw [(h.right' x hd).1 hl, hx]
      · exact (h.right' x hd).2 hl
  · constructor
    · exact h.left' x hd
    · by_cases hl : lost x
      · exact (h.right x hd).1 hl
      · rw [(h.right x hd).2 hl, hx]

/-- The entries of a page around the child `c` that `key` leads to, before (`F`) and after (`F'`)
that child has changed. -/
structure Around (F F' : Nat → Bytes → Option Bytes) (key : Bytes) (A : List (Bytes × Nat)) (k : Bytes) (c : Nat)
    (B : List (Bytes × Nat)) : Prop where
  sorted : Sorted ((A ++ (k, c) :: B).map Prod.fst)
  kA : A = [] ∨ ¬ key < k
  kB : ∀ e ∈ B, key < e.1
  sib : ∀ e, e ∈ A ∨ e ∈ B → F' e.2 = F e.2
  ranged : ∀ X D Y, A ++ (k, c) :: B = X ++ D :: Y → X ≠ [] →
    (∀ e ∈ X, ∀ x, F e.2 x ≠ none → x < D.1) ∧ ∀ x, F D.2 x ≠ none → ¬ x < D.1

/-- `x` leads to the same child. -/
def Joins (A : List (Bytes × Nat)) (k : Bytes) (B : List (Bytes × Nat)) (x : Bytes) : Prop :=
  (A = [] ∨ ¬ x < k) ∧ ∀ e ∈ B, x < e.1

theorem Around.parts {F F' : Nat → Bytes → Option Bytes} {key : Bytes} {A : List (Bytes × Nat)} {k : Bytes} {c : Nat}
    {B : List (Bytes × Nat)} (h : Around F F' key A k c B) :
    (∀ a ∈ A, a.1 < k) ∧ (∀ b ∈ B, k < b.1) ∧ (∀ a ∈ A, ∀ b ∈ B, a.1 < b.1) ∧ Sorted (B.map Prod.fst) ∧ Sorted (A.map Prod.fst) := by
  have hs := h.sorted
  rw [List.map_append, List.map_cons, sorted_append, sorted_cons] at hs
  obtain ⟨s1, ⟨s2, s3⟩, s4⟩ := hs
  exact ⟨fun a ha => s4 _ (List.mem_map_of_mem ha) _ (by simp), fun b hb => s2 _ (List.mem_map_of_mem hb),
    fun a ha b hb => s4 _ (List.mem_map_of_mem ha) _ (List.mem_cons_of_mem _ (List.mem_map_of_mem hb)), s3, s1⟩

/-- Where a key leads that does not lead to the changed child. -/
theorem not_same {A : List (Bytes × Nat)} {k : Bytes} {B : List (Bytes × Nat)} {x : Bytes} (hs : Sorted (B.map Prod.fst))
    (h : ¬ Joins A k B x) : (A ≠ [] ∧ x < k) ∨ ∃ D B', B = D :: B' ∧ ¬ x < D.1 := by
  by_cases h1 : A = [] ∨ ¬ x < k
  · right
    have h2 : ¬ ∀ e ∈ B, x < e.1 := fun h2 => h ⟨h1, h2⟩
    cases B with
    | nil => exact absurd (by simp) h2
    | cons D B' =>
      refine ⟨D, B', rfl, fun hx => h2 ?_⟩
      intro e he
      rw [List.map_cons, sorted_cons] at hs
      rcases List.mem_cons.1 he with rfl | he
      · exact hx
      · exact blt_trans hx (hs.1 e.1 (List.mem_map_of_mem he))
  · left
    rw [not_or] at h1
    exact ⟨h1.1, Decidable.not_not.1 h1.2⟩

/-- The entries with the child replaced by `M`: keys that lead elsewhere find the same. -/
theorem Around.other {F F' : Nat → Bytes → Option Bytes} {key : Bytes} {A : List (Bytes × Nat)} {k : Bytes} {c : Nat}
    {B : List (Bytes × Nat)} (h : Around F F' key A k c B) {k0 : Bytes} {c0 : Nat} {M : List (Bytes × Nat)}
    (hk0 : A ≠ [] → k0 = k) (hM : ∀ m ∈ (k0, c0) :: M, ∀ b ∈ B, m.1 < b.1) {x : Bytes} (hx : ¬ Joins A k B x) :
    node F' (A ++ (k0, c0) :: (M ++ B)) x = node F (A ++ (k, c) :: B) x := by
  obtain ⟨p1, p2, p3, p4, p5⟩ := h.parts
  unfold node
  rcases not_same p4 hx with ⟨hA, hlt⟩ | ⟨D, B', rfl, hD⟩
  · have h0 := hk0 hA; subst h0
    rw [route_append hA p1, route_append hA p1, if_pos hlt]
    obtain ⟨e, he, hr⟩ := route_mem hA x
    rw [if_pos hlt, hr, h.sib e (.inl he)]
  · obtain ⟨e, he, hr⟩ := route_mem (A := D :: B') (by simp) x
    have e1 : route (A ++ (k0, c0) :: (M ++ D :: B')) x = route (D :: B') x := by
      have : A ++ (k0, c0) :: (M ++ D :: B') = (A ++ (k0, c0) :: M) ++ D :: B' := by simp
      rw [this, route_append (by simp), if_neg hD]
      intro a ha
      rcases List.mem_append.1 ha with ha | ha
      · exact p3 a ha D (by simp)
      · exact hM a ha D (by simp)
    have e2 : route (A ++ (k, c) :: D :: B') x = route (D :: B') x := by
      have : A ++ (k, c) :: D :: B' = (A ++ [(k, c)]) ++ D :: B' := by simp
      rw [this, route_append (by simp), if_neg hD]
      intro a ha
      rcases List.mem_append.1 ha with ha | ha
      · exact p3 a ha D (by simp)
      · rw [List.mem_singleton] at ha; subst ha; exact p2 D (by simp)
    rw [e1, e2, hr, h.sib e (.inr he)]

/-- Keys that lead to the changed child. -/
theorem route_same {A : List (Bytes × Nat)} {k k0 : Bytes} {c0 : Nat} {M B : List (Bytes × Nat)} {x : Bytes}
    (hA : ∀ a ∈ A, a.1 < k) (hk0 : A ≠ [] → k0 = k) (hx : Joins A k B x)
    (hM : ∀ m ∈ (k0, c0) :: M, ∀ b ∈ B, m.1 < b.1) :
    route (A ++ (k0, c0) :: (M ++ B)) x = route ((k0, c0) :: M) x := by
  have h0 : route (A ++ (k0, c0) :: (M ++ B)) x = route ((k0, c0) :: (M ++ B)) x := by
    by_cases hn : A = []
    · subst hn; rfl
    · have := hk0 hn; subst this
      rw [route_append hn hA]
      rcases hx.1 with h | h
      · exact absurd h hn
      · rw [if_neg h]
  rw [h0]
  cases B with
  | nil => rw [List.append_nil]
  | cons b B =>
    rw [← List.cons_append, route_append (by simp) (fun m hm => hM m hm b (by simp)), if_pos (hx.2 b (by simp))]

theorem Around.old {F F' : Nat → Bytes → Option Bytes} {key val : Bytes} {A : List (Bytes × Nat)} {k : Bytes} {c : Nat}
    {B : List (Bytes × Nat)} (h : Around F F' key A k c B) {x : Bytes} :
    (Joins A k B x → upd (node F (A ++ (k, c) :: B)) key val x = upd (F c) key val x) ∧
    (¬ Joins A k B x → upd (node F (A ++ (k, c) :: B)) key val x = node F (A ++ (k, c) :: B) x) := by
  obtain ⟨p1, p2, -⟩ := h.parts
  constructor
  · intro hx
    unfold upd
    split
    · rfl
    · unfold node
      have := route_same (M := []) (c0 := c) p1 (fun _ => rfl) hx (by simpa using p2)
      rw [List.nil_append] at this
      rw [this, route_one]
  · intro hx
    unfold upd
    rw [if_neg]
    rintro rfl
    exact hx ⟨h.kA, h.kB⟩

/-- The child took the pair. -/
theorem Around.one {F F' : Nat → Bytes → Option Bytes} {key val : Bytes} {A : List (Bytes × Nat)} {k : Bytes} {c : Nat}
    {B : List (Bytes × Nat)} (h : Around F F' key A k c B) {lost : Bytes → Prop}
    (hc : Whole (F' c) (upd (F c) key val) lost) :
    Whole (node F' (A ++ (k, c) :: B)) (upd (node F (A ++ (k, c) :: B)) key val) fun x => Joins A k B x ∧ lost x := by
  intro x
  obtain ⟨p1, p2, -⟩ := h.parts
  by_cases hx : Joins A k B x
  · rw [(h.old (val := val)).1 hx]
    have := route_same (M := []) (c0 := c) p1 (fun _ => rfl) hx (by simpa using p2)
    rw [List.nil_append] at this
    unfold node
    rw [this, route_one]
    exact ⟨fun hl => (hc x).1 hl.2, fun hl => (hc x).2 fun hh => hl ⟨hx, hh⟩⟩
  · rw [(h.old (val := val)).2 hx]
    have := h.other (M := []) (c0 := c) (fun _ => rfl) (by simpa using p2) hx
    rw [List.nil_append] at this
    exact ⟨fun hl => absurd hl.1 hx, fun _ => this⟩

/-- The child was split, and the new separator goes behind that of the child. -/
theorem Around.two {F F' : Nat → Bytes → Option Bytes} {key val : Bytes} {A : List (Bytes × Nat)} {k : Bytes} {c : Nat}
    {B : List (Bytes × Nat)} (h : Around F F' key A k c B) {lost stray : Bytes → Prop} {d : Bytes} {c' : Nat}
    (hc : Halves (F' c) (F' c') (upd (F c) key val) d lost stray) (hB : ∀ b ∈ B, d < b.1) :
    Whole (node F' (A ++ (k, c) :: (d, c') :: B)) (upd (node F (A ++ (k, c) :: B)) key val)
      fun x => Joins A k B x ∧ (lost x ∨ stray x) := by
  intro x
  obtain ⟨p1, p2, -⟩ := h.parts
  have hM : ∀ m ∈ (k, c) :: [(d, c')], ∀ b ∈ B, m.1 < b.1 := by
    intro m hm b hb
    simp only [List.mem_cons, List.not_mem_nil, or_false] at hm
    rcases hm with rfl | rfl
    · exact p2 b hb
    · exact hB b hb
  by_cases hx : Joins A k B x
  · rw [(h.old (val := val)).1 hx]
    have := route_same (M := [(d, c')]) (c0 := c) p1 (fun _ => rfl) hx hM
    unfold node
    rw [List.singleton_append] at this
    rw [this, route_cons, route_one]
    by_cases hd : x < d
    · rw [if_pos hd]
      exact ⟨fun hl => (hc.left x hd).1 hl.2, fun hl => (hc.left x hd).2 fun hh => hl ⟨hx, hh⟩⟩
    · rw [if_neg hd]
      refine ⟨fun hl => (hc.right x hd).1 ?_, fun hl => (hc.right x hd).2 fun hh => hl ⟨hx, .inl hh⟩⟩
      rcases hl.2 with hl | hl
      · exact hl
      · exact absurd (hc.sub x hl) hd
  · rw [(h.old (val := val)).2 hx]
    have := h.other (M := [(d, c')]) (c0 := c) (fun _ => rfl) hM hx
    rw [List.singleton_append] at this
    exact ⟨fun hl => absurd hl.1 hx, fun _ => this⟩

/-- The first child was split, and the new separator goes in front of that of the child. -/
theorem Around.swap {F F' : Nat → Bytes → Option Bytes} {key val : Bytes} {k : Bytes} {c : Nat}
    {B : List (Bytes × Nat)} (h : Around F F' key [] k c B) {lost stray : Bytes → Prop} {d : Bytes} {c' : Nat}
    (hc : Halves (F' c) (F' c') (upd (F c) key val) d lost stray) (hB : ∀ b ∈ B, d < b.1) (hd : d < k) :
    Whole (node F' ((d, c') :: (k, c) :: B)) (upd (node F ((k, c) :: B)) key val)
      fun x => Joins [] k B x ∧ (lost x ∨ ¬ x < k ∨ (x < d ∧ ¬ stray x)) := by
  intro x
  obtain ⟨p1, p2, -⟩ := h.parts
  have hM : ∀ m ∈ (d, c') :: [(k, c)], ∀ b ∈ B, m.1 < b.1 := by
    intro m hm b hb
    simp only [List.mem_cons, List.not_mem_nil, or_false] at hm
    rcases hm with rfl | rfl
    · exact hB b hb
    · exact p2 b hb
  have hne : ([] : List (Bytes × Nat)) ≠ [] → d = k := fun hh => absurd rfl hh
  by_cases hx : Joins [] k B x
  · have ho := (h.old (val := val)).1 hx
    rw [List.nil_append] at ho
    rw [ho]
    have := route_same (M := [(k, c)]) (c0 := c') p1 hne hx hM
    unfold node
    rw [List.nil_append, List.singleton_append] at this
    rw [this, route_cons, route_one]
    by_cases hk : x < k
    · rw [if_pos hk]
      by_cases hd : x < d
      · constructor
        · rintro ⟨-, hl⟩
          apply (hc.right' x hd).2
          rintro ⟨h1, h2⟩
          rcases hl with hl | hl | hl
          · exact h2 hl
          · exact hl hk
          · exact hl.2 h1
        · intro hl
          apply (hc.right' x hd).1
          refine ⟨Classical.byContradiction fun hh => hl ⟨hx, .inr (.inr ⟨hd, hh⟩)⟩, fun hh => hl ⟨hx, .inl hh⟩⟩
      · constructor
        · rintro ⟨-, hl⟩
          apply (hc.right x hd).1
          rcases hl with hl | hl | hl
          · exact hl
          · exact absurd hk hl
          · exact absurd hl.1 hd
        · intro hl
          exact (hc.right x hd).2 fun hh => hl ⟨hx, .inl hh⟩
    · rw [if_neg hk]
      have hnd : ¬ x < d := fun hh => hk (blt_trans hh hd)
      exact ⟨fun _ => hc.left' x hnd, fun hl => absurd ⟨hx, .inr (.inl hk)⟩ hl⟩
  · have ho := (h.old (val := val)).2 hx
    rw [List.nil_append] at ho
    rw [ho]
    have := h.other (M := [(k, c)]) (c0 := c') hne hM hx
    rw [List.nil_append, List.singleton_append, List.nil_append] at this
    exact ⟨fun hl => absurd hl.1 hx, fun _ => this⟩

/-- Cutting a page in two at an entry. -/
theorem Whole.cut {F' : Nat → Bytes → Option Bytes} {f : Bytes → Option Bytes} {lost : Bytes → Prop}
    {L : List (Bytes × Nat)} {D : Bytes × Nat} {R : List (Bytes × Nat)} (hw : Whole (node F' (L ++ D :: R)) f lost)
    (hL : L ≠ []) (hs : Sorted ((L ++ D :: R).map Prod.fst)) (h1 : ∀ e ∈ L, ∀ x, ¬ x < D.1 → F' e.2 x = none)
    (h2 : ∀ x, x < D.1 → F' D.2 x = none) :
    Halves (node F' L) (node F' (D :: R)) f D.1 lost fun _ => False := by
  rw [List.map_append, List.map_cons, sorted_append, sorted_cons] at hs
  obtain ⟨s1, ⟨s2, s3⟩, s4⟩ := hs
  have hr : ∀ x, route (L ++ D :: R) x = if x < D.1 then route L x else route (D :: R) x :=
    route_append hL fun a ha => s4 a.1 (List.mem_map_of_mem ha) D.1 (by simp)
  have hn : ∀ x, node F' (L ++ D :: R) x = if x < D.1 then node F' L x else node F' (D :: R) x := by
    intro x; unfold node; rw [hr]; split <;> rfl
  refine ⟨fun _ hh => hh.elim, fun x hx => ?_, fun x hx => ⟨fun hh => hh.1.elim, fun _ => ?_⟩, fun x hx => ?_, fun x hx => ?_⟩
  · have := hw x
    rw [hn, if_pos hx] at this
    simpa using this
  · unfold node
    have : route (D :: R) x = D.2 := by
      cases R with
      | nil => rfl
      | cons e R =>
        rw [show D = (D.1, D.2) from rfl, route_cons, if_pos]
        exact blt_trans hx (s2 e.1 (by simp))
    rw [this]; exact h2 x hx
  · have := hw x
    rw [hn, if_neg hx] at this
    exact this
  · unfold node
    obtain ⟨e, he, hr⟩ := route_mem hL x
    rw [hr]; exact h1 e he x hx

/-- Nothing new below the changed child outside its range. -/
theorem Around.child_none {F F' : Nat → Bytes → Option Bytes} {key val : Bytes} {A : List (Bytes × Nat)} {k : Bytes} {c : Nat}
    {B : List (Bytes × Nat)} (h : Around F F' key A k c B) {x : Bytes} (hx : ¬ Joins A k B x) :
    upd (F c) key val x = none := by
  have h1 : x ≠ key := by rintro rfl; exact hx ⟨h.kA, h.kB⟩
  unfold upd
  rw [if_neg h1]
  apply Classical.byContradiction
  intro hne
  apply hx
  constructor
  · by_cases hA : A = []
    · exact .inl hA
    · exact .inr ((h.ranged A (k, c) B rfl hA).2 x hne)
  · intro e he
    obtain ⟨B1, B2, rfl⟩ := List.append_of_mem he
    exact (h.ranged (A ++ (k, c) :: B1) e B2 (by simp) (by simp)).1 (k, c) (by simp) x hne

/-- The page is split behind the new separator. -/
theorem Around.cut_lt {F F' : Nat → Bytes → Option Bytes} {key val : Bytes} {A : List (Bytes × Nat)} {k : Bytes} {c : Nat}
    {B1 B2 : List (Bytes × Nat)} {D : Bytes × Nat} (h : Around F F' key A k c (B1 ++ D :: B2)) {lost stray : Bytes → Prop} {d : Bytes} {c' : Nat}
    (hc : Halves (F' c) (F' c') (upd (F c) key val) d lost stray) {e : Bytes × Nat} (he : e ∈ A ++ (k, c) :: (d, c') :: B1)
    {x : Bytes} (hx : ¬ x < D.1) : F' e.2 x = none := by
  have hns : ¬ Joins A k (B1 ++ D :: B2) x := fun hs => hx (hs.2 D (by simp))
  have hn := hc.none (h.child_none (val := val) hns)
  have hr := (h.ranged (A ++ (k, c) :: B1) D B2 (by simp) (by simp)).1
  simp only [List.mem_append, List.mem_cons] at he
  rcases he with he | rfl | rfl | he
  · rw [h.sib e (.inl he)]
    exact Classical.byContradiction fun hne => hx (hr e (by simp [he]) x hne)
  · exact hn.1
  · exact hn.2
  · rw [h.sib e (.inr (by simp [he]))]
    exact Classical.byContradiction fun hne => hx (hr e (by simp [he]) x hne)

theorem Around.old_low {F F' : Nat → Bytes → Option Bytes} {key val : Bytes} {A : List (Bytes × Nat)} {k : Bytes} {c : Nat}
    {B : List (Bytes × Nat)} (h : Around F F' key A k c B) {lost stray : Bytes → Prop} {d : Bytes} {c' : Nat}
    (hc : Halves (F' c) (F' c') (upd (F c) key val) d lost stray) {X : List (Bytes × Nat)} {D : Bytes × Nat} {Y : List (Bytes × Nat)}
    (hD : A ++ (k, c) :: B = X ++ D :: Y) (hX : X ≠ []) {x : Bytes} (hx : x < D.1) : F' D.2 x = none := by
  have hr := (h.ranged X D Y hD hX).2 x
  have hm : D ∈ A ++ (k, c) :: B := by rw [hD]; simp
  simp only [List.mem_append, List.mem_cons] at hm
  rcases hm with hm | hm | hm
  · rw [h.sib D (.inl hm)]
    exact Classical.byContradiction fun hne => hr hne hx
  · subst hm
    refine (hc.none (h.child_none (val := val) fun hs => ?_)).1
    rcases hs.1 with hA | hA
    · subst hA
      cases X with
      | nil => exact hX rfl
      | cons a X =>
        have hs := h.sorted
        rw [hD] at hs
        simp only [List.nil_append, List.cons_append, List.cons.injEq] at hD
        rw [List.cons_append, List.map_cons, sorted_cons] at hs
        have := hs.1 k (by simp)
        rw [← hD.1] at this
        exact blt_irrefl _ this
    · exact hA hx
  · rw [h.sib D (.inr hm)]
    exact Classical.byContradiction fun hne => hr hne hx

/-- The page is split in front of the child on the way, or at it. -/
theorem Around.cut_gt {F F' : Nat → Bytes → Option Bytes} {key : Bytes} {A : List (Bytes × Nat)} {k : Bytes} {c : Nat}
    {B : List (Bytes × Nat)} (h : Around F F' key A k c B) {A1 A2 : List (Bytes × Nat)} {D : Bytes × Nat}
    (hD : A ++ [(k, c)] = A1 ++ D :: A2) {e : Bytes × Nat} (he : e ∈ A1)
    {x : Bytes} (hx : ¬ x < D.1) : F' e.2 x = none := by
  have heA : e ∈ A := by
    rcases List.eq_nil_or_concat A2 with rfl | ⟨l, a, rfl⟩
    · have := List.append_inj hD (by have := congrArg List.length hD; simp at this; omega)
      rw [this.1]; exact he
    · rw [List.concat_eq_append, ← List.cons_append, ← List.append_assoc] at hD
      have := List.append_inj hD (by have := congrArg List.length hD; simp at this ⊢; omega)
      rw [this.1]; simp [he]
  rw [h.sib e (.inl heA)]
  have hr := (h.ranged A1 D (A2 ++ B) (by
    have : A ++ (k, c) :: B = (A ++ [(k, c)]) ++ B := by simp
    rw [this, hD]; simp) (by rintro rfl; cases he)).1
  exact Classical.byContradiction fun hne => hx (hr e he x hne)

/-- The new separator falls on the middle. -/
theorem Around.middle {F F' : Nat → Bytes → Option Bytes} {key val : Bytes} {A : List (Bytes × Nat)} {k : Bytes} {c : Nat}
    {D : Bytes × Nat} {B : List (Bytes × Nat)} (h : Around F F' key A k c (D :: B)) {lost stray : Bytes → Prop} {d : Bytes} {c' : Nat}
    (hc : Halves (F' c) (F' c') (upd (F c) key val) d lost stray) (hd : d < D.1) (hkd : k < d) :
    Halves (node F' (A ++ [(k, c)])) (node F' ((d, c') :: D :: B)) (upd (node F (A ++ (k, c) :: D :: B)) key val) D.1
      (fun x => Joins A k (D :: B) x ∧ lost x) fun x => Joins A k (D :: B) x ∧ (x < d → stray x) := by
  obtain ⟨p1, p2, p3, p4, p5⟩ := h.parts
  rw [List.map_cons, sorted_cons] at p4
  have hsame : ∀ x, x < D.1 → ((A = [] ∨ ¬ x < k) ↔ Joins A k (D :: B) x) := by
    intro x hx
    refine ⟨fun hh => ⟨hh, fun e he => ?_⟩, fun hh => hh.1⟩
    rcases List.mem_cons.1 he with rfl | he
    · exact hx
    · exact blt_trans hx (p4.1 e.1 (List.mem_map_of_mem he))
  have hleft : ∀ x, Joins A k (D :: B) x → node F' (A ++ [(k, c)]) x = F' c x := by
    intro x hx
    unfold node
    rw [route_mid p1 hx.1 (by simp)]
  have hleft2 : ∀ x, x < D.1 → ¬ Joins A k (D :: B) x → node F' (A ++ [(k, c)]) x = node F (A ++ (k, c) :: D :: B) x := by
    intro x hx hns
    have hh : ¬ (A = [] ∨ ¬ x < k) := fun hh => hns ((hsame x hx).1 hh)
    rw [not_or] at hh
    have hlt := Decidable.not_not.1 hh.2
    unfold node
    obtain ⟨e, he, hr⟩ := route_mem hh.1 x
    rw [route_append hh.1 p1, route_append hh.1 p1, if_pos hlt, if_pos hlt, hr, h.sib e (.inl he)]
  have hright : ∀ x, x < D.1 → node F' ((d, c') :: D :: B) x = F' c' x := by
    intro x hx
    unfold node; rw [route_cons, if_pos hx]
  refine ⟨fun x hx => hx.1.2 D (by simp), fun x hx => ?_, fun x hx => ?_, fun x hx => ?_, fun x hx => ?_⟩
  · by_cases hs : Joins A k (D :: B) x
    · rw [(h.old (val := val)).1 hs, hleft x hs]
      by_cases hxd : x < d
      · constructor
        · rintro (⟨-, hl⟩ | ⟨-, hl⟩)
          · exact (hc.left x hxd).1 (.inl hl)
          · exact (hc.left x hxd).1 (.inr (hl hxd))
        · intro hl
          refine (hc.left x hxd).2 ?_
          rintro (hh | hh)
          · exact hl (.inl ⟨hs, hh⟩)
          · exact hl (.inr ⟨hs, fun _ => hh⟩)
      · exact ⟨fun _ => hc.left' x hxd, fun hl => absurd (.inr ⟨hs, fun hh => absurd hh hxd⟩) hl⟩
    · rw [(h.old (val := val)).2 hs]
      refine ⟨?_, fun _ => hleft2 x hx hs⟩
      rintro (hh | hh) <;> exact absurd hh.1 hs
  · rw [hright x hx]
    by_cases hs : Joins A k (D :: B) x
    · rw [(h.old (val := val)).1 hs]
      by_cases hxd : x < d
      · constructor
        · rintro ⟨⟨-, h1⟩, h2⟩
          exact (hc.right' x hxd).1 ⟨h1 hxd, fun hh => h2 ⟨hs, hh⟩⟩
        · intro hl
          refine (hc.right' x hxd).2 ?_
          rintro ⟨h1, h2⟩
          exact hl ⟨⟨hs, fun _ => h1⟩, fun hh => h2 hh.2⟩
      · constructor
        · rintro ⟨-, h2⟩
          exact (hc.right x hxd).2 fun hh => h2 ⟨hs, hh⟩
        · intro hl
          apply (hc.right x hxd).1
          exact Classical.byContradiction fun hh => hl ⟨⟨hs, fun h' => absurd h' hxd⟩, fun h' => hh h'.2⟩
    · have hn := (hc.none (h.child_none (val := val) hs)).2
      exact ⟨fun hh => absurd hh.1.1 hs, fun _ => hn⟩
  · have hs : ¬ Joins A k (D :: B) x := fun hs => hx (hs.2 D (by simp))
    rw [(h.old (val := val)).2 hs]
    refine ⟨fun hh => absurd hh.1 hs, fun _ => ?_⟩
    have hM : ∀ m ∈ (k, c) :: [(d, c')], ∀ b ∈ D :: B, m.1 < b.1 := by
      intro m hm b hb
      simp only [List.mem_cons, List.not_mem_nil, or_false] at hm
      rcases hm with rfl | rfl
      · exact p2 b hb
      · rcases List.mem_cons.1 hb with rfl | hb
        · exact hd
        · exact blt_trans hd (p4.1 b.1 (List.mem_map_of_mem hb))
    have := h.other (M := [(d, c')]) (c0 := c) (fun _ => rfl) hM hs
    rw [← this]
    unfold node
    rw [List.singleton_append, route_cons, if_neg hx]
    have e1 : A ++ (k, c) :: (d, c') :: D :: B = (A ++ [(k, c), (d, c')]) ++ D :: B := by simp
    rw [e1, route_append (by simp), if_neg hx]
    intro a ha
    rcases List.mem_append.1 ha with ha | ha
    · exact p3 a ha D (by simp)
    · exact hM a ha D (by simp)
  · by_cases hs : A = [] ∨ ¬ x < k
    · unfold node
      rw [route_mid p1 hs (by simp)]
      exact hc.left' x fun hh => hx (blt_trans hh hd)
    · rw [not_or] at hs
      exact absurd (blt_trans (Decidable.not_not.1 hs.2) (p2 D (by simp))) hx

end Verif.Db
