import Verif.Db.ExactSpec
import Verif.Db.Middle

/-!
# Helper lemmas: searching a tree
-/

namespace Verif.Db

open Verif.Page

/-! ## Routes -/

theorem route_cons (k : Bytes) (c : Nat) (e : Bytes × Nat) (B : List (Bytes × Nat)) (x : Bytes) :
    route ((k, c) :: e :: B) x = if x < e.1 then c else route (e :: B) x := rfl

theorem route_one (k : Bytes) (c : Nat) (x : Bytes) : route [(k, c)] x = c := rfl

theorem route_append {A : List (Bytes × Nat)} {e : Bytes × Nat} {B : List (Bytes × Nat)} (hA : A ≠ [])
    (hs : ∀ a ∈ A, a.1 < e.1) (x : Bytes) :
    route (A ++ e :: B) x = if x < e.1 then route A x else route (e :: B) x := by
  induction A with
  | nil => exact absurd rfl hA
  | cons a A ih =>
    cases A with
    | nil => rfl
    | cons b A =>
      have ih := ih (by simp) fun y hy => hs y (List.mem_cons_of_mem _ hy)
      rw [List.cons_append, List.cons_append, route_cons, route_cons]
      rw [List.cons_append] at ih
      have hb := hs b (by simp)
      by_cases h : x < b.1
      · rw [if_pos h, if_pos h, if_pos (blt_trans h hb)]
      · rw [if_neg h, if_neg h]; exact ih

theorem route_mem {A : List (Bytes × Nat)} (hA : A ≠ []) (x : Bytes) : ∃ e ∈ A, route A x = e.2 := by
  induction A with
  | nil => exact absurd rfl hA
  | cons a A ih =>
    cases A with
    | nil => exact ⟨a, by simp, rfl⟩
    | cons b A =>
      rw [show (a :: b :: A) = (a.1, a.2) :: b :: A from rfl, route_cons]
      split
      · exact ⟨a, by simp, rfl⟩
      · obtain ⟨e, he, h⟩ := ih (by simp)
        exact ⟨e, List.mem_cons_of_mem _ he, h⟩

/-- The child a decomposition of the entries names. -/
theorem route_mid {A : List (Bytes × Nat)} {k : Bytes} {c : Nat} {B : List (Bytes × Nat)} {x : Bytes}
    (hs : ∀ a ∈ A, a.1 < k) (hA : A = [] ∨ ¬ x < k) (hB : ∀ e ∈ B, x < e.1) : route (A ++ (k, c) :: B) x = c := by
  have h0 : route ((k, c) :: B) x = c := by
    cases B with
    | nil => rfl
    | cons e B => rw [route_cons, if_pos (hB e (by simp))]
  by_cases hn : A = []
  · subst hn; exact h0
  · rw [route_append hn hs]
    rcases hA with h | h
    · exact absurd h hn
    · rw [if_neg h]; exact h0

theorem sorted_entries {p : Page} (hs : Sorted (keys p)) : Sorted ((entries p).map Prod.fst) := by
  rw [← keys_eq_entries]; exact hs

theorem routes_route {p : Page} (hs : Sorted (keys p)) {x : Bytes} {A : List (Bytes × Nat)} {k : Bytes} {c : Nat}
    {B : List (Bytes × Nat)} (h : Routes p x A k c B) : route (entries p) x = c := by
  have hs := sorted_entries hs
  rw [h.1] at hs ⊢
  rw [List.map_append, sorted_append] at hs
  exact route_mid (fun a ha => hs.2.2 a.1 (List.mem_map_of_mem ha) k (by simp)) h.2.1 h.2.2

/-! ## The search of the program -/

theorem findLeaf_sight {env : Env} {t : Txn} {key : Bytes} (hk : key.length < 65536) (h : Nat) :
    ∀ {n d : Nat}, Sound (getPage env t) h n → h < d →
    ∃ p, findLeaf env t key d n = .ok (.ok p) ∧ WF p ∧ isLeaf p = true ∧ Sorted (keys p) ∧
      sight (getPage env t) h n key = (kvs p).lookup key := by
  induction h with
  | zero =>
    rintro n d ⟨p, h1, h2, h3, h4⟩ hd
    obtain ⟨d, rfl⟩ : ∃ d', d = d' + 1 := ⟨d - 1, by omega⟩
    refine ⟨p, ?_, h2, h3, h4, by rw [sight, h1]⟩
    rw [findLeaf, h1, Res.ok_bind, if_pos h3]
  | succ h ih =>
    rintro n d ⟨p, h1, h2, h3, h4, h5, h6⟩ hd
    obtain ⟨d, rfl⟩ : ∃ d', d = d' + 1 := ⟨d - 1, by omega⟩
    obtain ⟨A, k, c, B, hr, hi, hc⟩ := childIdx_spec h2 h3 h4 h5 hk
    obtain ⟨q, a1, a2, a3, a4, a5⟩ := ih (d := d) (h6 (k, c) (by rw [hr.1]; simp)) (by omega)
    refine ⟨q, ?_, a2, a3, a4, ?_⟩
    · rw [findLeaf, h1, Res.ok_bind, if_neg (by simp [h3]), if_neg (by simp [wf_isBranch h2 h3]), hi,
        Res.ok_bind, hc, Res.ok_bind, a1]
    · rw [sight, h1]
      simp only
      rw [routes_route h4 hr, a5]

/-- What `get` answers when the search finds `r`. -/
def found : Option Bytes → Except Status Bytes
  | some v => .ok v
  | none => .error .notfound

theorem get_sight {env : Env} {t : Txn} {h : Nat} (h0 : t.root ≠ 0) (hs : Sound (getPage env t) h t.root) {key : Bytes}
    (hk : key.length < 65536) {fuel : Nat} (hf : h < fuel) :
    get env t fuel key = .ok (found (sight (getPage env t) h t.root key)) := by
  obtain ⟨p, a1, a2, a3, a4, a5⟩ := findLeaf_sight hk h hs hf
  have := leafGet_spec a2 a3 a4 hk
  unfold get
  rw [if_neg h0, a1, Res.ok_bind, a5]
  simp only []
  unfold leafGet at this
  refine Eq.trans ?_ (this.trans ?_)
  · rfl
  · unfold answer found; rfl

/-! ## Views that agree on the pages -/

theorem sight_frame {g g' : View} (h : Nat) : ∀ {n : Nat}, Sound g h n → (∀ x ∈ pagesOf g h n, g' x = g x) →
    sight g' h n = sight g h n := by
  induction h with
  | zero =>
    rintro n - ha
    funext x
    rw [sight, sight, ha n (self_mem_pagesOf _ _ _)]
  | succ h ih =>
    rintro n ⟨p, h1, h2, h3, h4, h5, h6⟩ ha
    funext x
    rw [sight, sight, ha n (self_mem_pagesOf _ _ _), h1]
    simp only
    obtain ⟨e, he, hr⟩ := route_mem h5 x
    rw [hr, ih (h6 e he)]
    intro y hy
    apply ha
    rw [pagesOf_succ h1]
    exact List.mem_cons_of_mem _ (List.mem_flatMap.2 ⟨e, he, hy⟩)

theorem sound_frame {g g' : View} (h : Nat) : ∀ {n : Nat}, (∀ x ∈ pagesOf g h n, g' x = g x) → Sound g h n → Sound g' h n := by
  induction h with
  | zero =>
    rintro n ha ⟨p, h1, h2⟩
    exact ⟨p, by rw [ha n (self_mem_pagesOf _ _ _), h1], h2⟩
  | succ h ih =>
    rintro n ha ⟨p, h1, h2, h3, h4, h5, h6⟩
    refine ⟨p, by rw [ha n (self_mem_pagesOf _ _ _), h1], h2, h3, h4, h5, fun e he => ih (fun x hx => ha x ?_) (h6 e he)⟩
    rw [pagesOf_succ h1]
    exact List.mem_cons_of_mem _ (List.mem_flatMap.2 ⟨e, he, hx⟩)

/-! ## Well-formed trees -/

theorem wft_sound {g : View} (h : Nat) : ∀ {lo hi : Option Bytes} {n : Nat}, WFT g h lo hi n → Sound g h n := by
  induction h with
  | zero =>
    rintro lo hi n ⟨p, h1, h2, h3, h4, h5, h6⟩
    exact ⟨p, h1, h3, h4, h5⟩
  | succ h ih =>
    rintro lo hi n ⟨p, h1, h2, h3, h4, h5, h6⟩
    refine ⟨p, h1, h3, h4, h5, kids_ne_nil h6, fun e he => ?_⟩
    obtain ⟨l, u, hw⟩ := kids_mem h6 he
    exact ih hw

/-- A page with entries sends every key somewhere. -/
theorem routes_exist {p : Page} (h0 : entries p ≠ []) (x : Bytes) : ∃ A k c B, Routes p x A k c B := by
  suffices key : ∀ (n : Nat) (E : List (Bytes × Nat)), E.length = n → E ≠ [] →
      ∃ A k c B, E = A ++ (k, c) :: B ∧ (A = [] ∨ ¬ x < k) ∧ ∀ e ∈ B, x < e.1 from key _ (entries p) rfl h0
  intro n
  induction n with
  | zero => intro E hn hE; exact absurd (List.length_eq_zero_iff.1 hn) hE
  | succ n ih =>
    intro E hn hE
    rcases List.eq_nil_or_concat E with rfl | ⟨l, ⟨k, c⟩, rfl⟩
    · exact absurd rfl hE
    rw [List.concat_eq_append] at hn ⊢
    by_cases hl : l = [] ∨ ¬ x < k
    · exact ⟨l, k, c, [], rfl, hl, by simp⟩
    · rw [not_or] at hl
      obtain ⟨A, k', c', B, h1, h2, h3⟩ := ih l (by simpa using hn) hl.1
      refine ⟨A, k', c', B ++ [(k, c)], by rw [h1]; simp, h2, ?_⟩
      intro e he
      rcases List.mem_append.1 he with he | he
      · exact h3 e he
      · rw [List.mem_singleton] at he; subst he; exact Decidable.not_not.1 hl.2

theorem sight_contents {g : View} {x : Bytes} (h : Nat) : ∀ {lo hi : Option Bytes} {n : Nat}, WFT g h lo hi n →
    InRange lo hi x → sight g h n x = (contents g h n).lookup x := by
  induction h with
  | zero =>
    rintro lo hi n ⟨p, h1, -⟩ -
    rw [sight, h1, contents_zero h1]
  | succ h ih =>
    rintro lo hi n ⟨p, h1, h2, h3, h4, h5, h6⟩ hin
    obtain ⟨A, k, c, B, hr⟩ := routes_exist (kids_ne_nil h6) x
    have h6' := h6
    rw [hr.1] at h6'
    have hsides := kids_sides (f := fun x => (contents g h x).map Prod.fst) (fun l u x hx => wft_range h hx) h6' hr.2.1 hr.2.2
    rw [sight, h1]
    simp only
    rw [routes_route h5 hr, ih (kids_focus h6').1 (inRange_child hin hr.2.1 hr.2.2), contents_succ h1, hr.1,
      List.flatMap_append, List.flatMap_cons, lookup_append_right]
    · rw [List.lookup_append]
      rw [lookup_gt (B := B.flatMap fun e => contents g h e.2), Option.or_none]
      intro b hb
      apply hsides.2
      rw [← List.map_flatMap]; exact List.mem_map_of_mem hb
    · intro a ha
      apply hsides.1
      rw [← List.map_flatMap]; exact List.mem_map_of_mem ha

theorem lookup_mem {l : List (Bytes × Bytes)} {x v : Bytes} (h : l.lookup x = some v) : x ∈ l.map Prod.fst := by
  induction l with
  | nil => cases h
  | cons a l ih =>
    obtain ⟨k, w⟩ := a
    rw [List.lookup_cons] at h
    by_cases hx : x = k
    · subst hx; simp
    · have : (x == k) = false := by simpa using hx
      rw [this] at h
      exact List.mem_cons_of_mem _ (ih h)

/-- Nothing is found outside the range of a tree. -/
theorem sight_range {g : View} {x : Bytes} (h : Nat) : ∀ {lo hi : Option Bytes} {n : Nat}, WFT g h lo hi n →
    sight g h n x ≠ none → InRange lo hi x := by
  induction h with
  | zero =>
    rintro lo hi n ⟨p, h1, h2, h3, h4, h5, h6⟩ hl
    rw [sight, h1] at hl
    obtain ⟨v, hv⟩ := Option.ne_none_iff_exists'.1 hl
    exact h6 x (by rw [keys_eq_kvs]; exact lookup_mem hv)
  | succ h ih =>
    rintro lo hi n ⟨p, h1, h2, h3, h4, h5, h6⟩ hl
    obtain ⟨A, k, c, B, hr⟩ := routes_exist (kids_ne_nil h6) x
    have h6' := h6
    rw [hr.1] at h6'
    rw [sight, h1] at hl
    simp only at hl
    rw [routes_route h5 hr] at hl
    have := ih (kids_focus h6').1 hl
    have hw := kids_widen (x := x) h6'
    exact ⟨hw.1 this.1, hw.2.2 this.2⟩

end Verif.Db
