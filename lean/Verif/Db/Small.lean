import Verif.Db.Props

/-!
# A leaf that never gets full

A page whose entries are of a fixed list of keys and have values of limited size, so that all of them together would fit a page.
-/

namespace Verif.Db.Wear

open Verif.Page

/-- The room that the entries of some keys need at most. -/
def need (K : List Bytes) (cap : Nat) : Nat := (K.map fun k => 6 + k.length + cap).sum

/-- A leaf that holds the map `m`, all keys of which are in `K` and all values of which have at most `cap` bytes, without holes. -/
structure Small (K : List Bytes) (cap : Nat) (p : Page) (m : KvMap) : Prop where
  wf : WF p
  leaf : isLeaf p = true
  sorted : Sorted (keys p)
  all : ∀ it ∈ items p, ∃ k v, it = .leaf k v ∧ k ∈ K ∧ v.length ≤ cap
  map : ∀ k v, m k = some v ↔ .leaf k v ∈ items p
  full : Verif.Page.room p + total (items p) + 2 * (items p).length = 4078

theorem sum_le {f : Bytes → Nat} : ∀ {l K : List Bytes}, l.Nodup → (∀ k ∈ l, k ∈ K) → (l.map f).sum ≤ (K.map f).sum := by
  intro l
  induction l with
  | nil => intro K _ _; exact Nat.zero_le _
  | cons k l ih =>
    intro K hn hs
    rw [List.nodup_cons] at hn
    have hk := List.perm_cons_erase (hs k List.mem_cons_self)
    have h1 := ih (K := K.erase k) hn.2 fun x hx => (List.mem_erase_of_ne (by rintro rfl; exact hn.1 hx)).2 (hs x (List.mem_cons_of_mem _ hx))
    have h2 := (hk.map f).sum_nat
    rw [List.map_cons, List.sum_cons] at h2 ⊢
    omega

theorem total_le {l : List Item} {cap : Nat} (h : ∀ it ∈ l, ∃ k v, it = .leaf k v ∧ v.length ≤ cap) : total l + 2 * l.length ≤ ((l.map Item.key).map fun k => 6 + k.length + cap).sum := by
  induction l with
  | nil => exact Nat.le_refl _
  | cons it l ih =>
    obtain ⟨k, v, rfl, hv⟩ := h it List.mem_cons_self
    have := ih fun it hi => h it (List.mem_cons_of_mem _ hi)
    unfold total at *
    simp only [List.map_cons, List.sum_cons, List.length_cons, Item.size, Item.key] at *
    omega

theorem sorted_nodup {l : List Bytes} (h : Sorted l) : l.Nodup := by
  refine List.Pairwise.imp ?_ h
  rintro a b hab rfl
  exact blt_irrefl _ hab

/-- There is room for a key that is not there yet. -/
theorem room_for {K : List Bytes} {cap : Nat} {l : List Item} (hs : Sorted (l.map Item.key)) (h : ∀ it ∈ l, ∃ k v, it = .leaf k v ∧ k ∈ K ∧ v.length ≤ cap) {key : Bytes} (hk : key ∈ K)
    (hn : ∀ it ∈ l, it.key ≠ key) : total l + 2 * l.length + (6 + key.length + cap) ≤ need K cap := by
  have h1 := total_le (l := l) (cap := cap) fun it hi => by obtain ⟨k, v, a, -, b⟩ := h it hi; exact ⟨k, v, a, b⟩
  have h2 := sum_le (f := fun k => 6 + k.length + cap) (l := key :: l.map Item.key) (K := K)
    (List.nodup_cons.2 ⟨fun hm => by obtain ⟨it, hi, e⟩ := List.mem_map.1 hm; exact hn it hi e, sorted_nodup hs⟩) (fun k hm => by
      rcases List.mem_cons.1 hm with rfl | hm
      · exact hk
      · obtain ⟨it, hi, rfl⟩ := List.mem_map.1 hm
        obtain ⟨k, v, rfl, hk, -⟩ := h it hi
        exact hk)
  unfold need
  simp only [List.map_cons, List.sum_cons] at h2
  omega

theorem total_append (a b : List Item) : total (a ++ b) = total a + total b := by simp [total]

theorem total_cons (a : Item) (b : List Item) : total (a :: b) = a.size + total b := by simp [total]

/-- A new entry is entered at its place. -/
theorem small_insert {K : List Bytes} {cap : Nat} (hK : need K cap ≤ 4078) {p : Page} (wf : WF p) (hl : isLeaf p = true) {A B : List Item} (hi : items p = A ++ B)
    (hs : Sorted ((A ++ B).map Item.key)) (hall : ∀ it ∈ A ++ B, ∃ k v, it = .leaf k v ∧ k ∈ K ∧ v.length ≤ cap) (hfull : Verif.Page.room p + total (A ++ B) + 2 * (A ++ B).length = 4078)
    {key val : Bytes} (hk : key ∈ K) (hv : val.length ≤ cap) (hA : ∀ a ∈ A, a.key < key) (hB : ∀ b ∈ B, key < b.key)
    {m : KvMap} (hm : ∀ k v, k ≠ key → (m k = some v ↔ .leaf k v ∈ A ++ B)) :
    ∃ q, Verif.Page.insert p A.length (.leaf key val) = .ok (.ok, q) ∧ pgno q = pgno p ∧ Small K cap q (m.put key val) := by
  have hr := room_for hs hall hk fun it hi => by
    rcases List.mem_append.1 hi with hi | hi
    · intro h; exact blt_irrefl _ (h ▸ hA it hi)
    · intro h; exact blt_irrefl _ (h ▸ hB it hi)
  have hn : A.length ≤ numKeys p := by rw [← items_length, hi]; simp
  obtain ⟨q, e, w, i1, n1, f1, r1⟩ := (insert_keeps_entries_partial wf hn (it := .leaf key val) hl.symm (by simp only [Item.size]; omega) (by simp [Item.child])).2 (by
    simp only [Item.size]; omega)
  rw [hi, insertIdx_mid] at i1
  refine ⟨q, e, n1, w, by unfold isLeaf; rw [f1]; exact hl, ?_, ?_, ?_, ?_⟩
  · unfold keys
    rw [i1, List.map_append, List.map_cons, sorted_append, sorted_cons]
    rw [List.map_append, sorted_append] at hs
    refine ⟨hs.1, ⟨?_, hs.2.1⟩, ?_⟩
    · intro b hb; obtain ⟨it, h, rfl⟩ := List.mem_map.1 hb; exact hB it h
    · intro a ha b hb
      rcases List.mem_cons.1 hb with rfl | hb
      · obtain ⟨it, h, rfl⟩ := List.mem_map.1 ha; exact hA it h
      · exact hs.2.2 a ha b hb
  · intro it h
    rw [i1] at h
    rcases List.mem_append.1 h with h | h
    · exact hall it (List.mem_append_left _ h)
    · rcases List.mem_cons.1 h with rfl | h
      · exact ⟨key, val, rfl, hk, hv⟩
      · exact hall it (List.mem_append_right _ h)
  · intro k v
    rw [i1]
    unfold KvMap.put
    by_cases h : k = key
    · subst h
      rw [if_pos rfl]
      constructor
      · intro e; cases e; simp
      · intro e
        rcases List.mem_append.1 e with e | e
        · exact absurd (hA _ e) (blt_irrefl _)
        · rcases List.mem_cons.1 e with e | e
          · cases e; rfl
          · exact absurd (hB _ e) (blt_irrefl _)
    · rw [if_neg h, hm k v h]
      simp only [List.mem_append, List.mem_cons]
      constructor
      · rintro (h | h)
        · exact .inl h
        · exact .inr (.inr h)
      · rintro (h' | h' | h')
        · exact .inl h'
        · cases h'; exact absurd rfl h
        · exact .inr h'
  · rw [i1, total_append, total_cons]
    rw [total_append] at hfull
    simp only [List.length_append, List.length_cons, Item.size] at *
    omega

/-- An entry is taken out. -/
theorem small_delete {K : List Bytes} {cap : Nat} {p : Page} {m : KvMap} (S : Small K cap p m) {A B : List Item} {it : Item} (hi : items p = A ++ it :: B) :
    ∃ q, Verif.Page.delete p A.length = .ok (.ok, q) ∧ pgno q = pgno p ∧ items q = A ++ B ∧ Small K cap q (m.del it.key) := by
  have hn : A.length < numKeys p := by rw [← items_length, hi]; simp
  obtain ⟨q, e, w, i1, n1, f1, r1⟩ := delete_removes_exactly_one S.wf hn
  have hit : (items p)[A.length]'(by simpa using hn) = it := by simp [hi]
  rw [hit] at r1
  have hs := S.sorted
  unfold keys at hs
  rw [hi, List.map_append, List.map_cons, sorted_append, sorted_cons] at hs
  have i1 : items q = A ++ B := by
    rw [i1, hi, List.eraseIdx_append_of_length_le (Nat.le_refl _)]; simp
  refine ⟨q, e, n1, i1, w, by unfold isLeaf; rw [f1]; exact S.leaf, ?_, ?_, ?_, ?_⟩
  · unfold keys
    rw [i1, List.map_append, sorted_append]
    exact ⟨hs.1, hs.2.1.2, fun a ha b hb => hs.2.2 a ha b (List.mem_cons_of_mem _ hb)⟩
  · intro x h
    rw [i1] at h
    refine S.all x ?_
    rw [hi]
    rcases List.mem_append.1 h with h | h
    · exact List.mem_append_left _ h
    · exact List.mem_append_right _ (List.mem_cons_of_mem _ h)
  · intro k v
    rw [i1]
    unfold KvMap.del
    by_cases h : k = it.key
    · subst h
      rw [if_pos rfl]
      constructor
      · intro e; cases e
      · intro e
        rcases List.mem_append.1 e with e | e
        · exact absurd (hs.2.2 it.key (List.mem_map.2 ⟨_, e, rfl⟩) it.key List.mem_cons_self) (blt_irrefl _)
        · exact absurd (hs.2.1.1 it.key (List.mem_map.2 ⟨_, e, rfl⟩)) (blt_irrefl _)
    · rw [if_neg h, S.map, hi]
      simp only [List.mem_append, List.mem_cons]
      constructor
      · rintro (h' | h' | h')
        · exact .inl h'
        · exact absurd (by rw [← h']; rfl) h
        · exact .inr h'
      · rintro (h | h)
        · exact .inl h
        · exact .inr (.inr h)
  · have := S.full
    rw [hi, total_append, total_cons] at this
    rw [i1, total_append]
    simp only [List.length_append, List.length_cons] at *
    omega

/-- What `napr_db_put` does with the leaf. -/
theorem small_put {K : List Bytes} {cap : Nat} (hK : need K cap ≤ 4078) {p : Page} {m : KvMap} (S : Small K cap p m) {key val : Bytes} (hk : key ∈ K) (hv : val.length ≤ cap)
    (h16 : key.length < 65536) :
    ∃ f, probe p key = .ok f ∧ f.hit = (m key).isSome ∧
      (f.hit = true → ∃ p1 q, Verif.Page.delete p f.idx = .ok (.ok, p1) ∧ Verif.Page.insert p1 f.idx (.leaf key val) = .ok (.ok, q) ∧ pgno q = pgno p ∧ Small K cap q (m.put key val)) ∧
      (f.hit = false → ∃ q, Verif.Page.insert p f.idx (.leaf key val) = .ok (.ok, q) ∧ pgno q = pgno p ∧ Small K cap q (m.put key val)) := by
  obtain ⟨f, hf, A, B, hA, hB, h⟩ := probe_spec S.wf S.sorted h16
  refine ⟨f, hf, ?_⟩
  rcases h with ⟨it, hi, rfl, rfl⟩ | ⟨hi, rfl⟩
  · obtain ⟨k, v, rfl, -, -⟩ := S.all it (by rw [hi]; simp)
    have hm : m k = some v := (S.map k v).2 (by rw [hi]; simp)
    refine ⟨by show true = (m k).isSome; rw [hm]; rfl, fun _ => ?_, (fun h => by cases h)⟩
    obtain ⟨p1, e1, n1, i1, S1⟩ := small_delete S hi
    obtain ⟨q, e2, n2, S2⟩ := small_insert hK S1.wf S1.leaf i1 (by have := S1.sorted; unfold keys at this; rw [i1] at this; exact this) (by have := S1.all; rw [i1] at this; exact this)
      (by have := S1.full; rw [i1] at this; exact this) hk hv hA hB (m := m) (fun k' v' hne => by
        rw [← i1, ← S1.map]; unfold KvMap.del; rw [if_neg hne])
    exact ⟨p1, q, e1, e2, n2.trans n1, S2⟩
  · have hm : m key = none := by
      cases h : m key with
      | none => rfl
      | some v =>
        have := (S.map key v).1 h
        rw [hi] at this
        rcases List.mem_append.1 this with h | h
        · exact absurd (hA _ h) (blt_irrefl _)
        · exact absurd (hB _ h) (blt_irrefl _)
    refine ⟨by show false = (m key).isSome; rw [hm]; rfl, (fun h => by cases h), fun _ => ?_⟩
    obtain ⟨q, e2, n2, S2⟩ := small_insert hK S.wf S.leaf hi (by have := S.sorted; unfold keys at this; rw [hi] at this; exact this) (by have := S.all; rw [hi] at this; exact this)
      (by have := S.full; rw [hi] at this; exact this) hk hv hA hB (m := m) (fun k' v' hne => by rw [← hi]; exact S.map k' v')
    exact ⟨q, e2, n2, S2⟩

/-- What `napr_db_del` does with the leaf. -/
theorem small_del {K : List Bytes} {cap : Nat} {p : Page} {m : KvMap} (S : Small K cap p m) {key : Bytes} (h16 : key.length < 65536) :
    ∃ f, probe p key = .ok f ∧ f.hit = (m key).isSome ∧ (f.hit = true → ∃ q, Verif.Page.delete p f.idx = .ok (.ok, q) ∧ pgno q = pgno p ∧ Small K cap q (m.del key)) := by
  obtain ⟨f, hf, A, B, hA, hB, h⟩ := probe_spec S.wf S.sorted h16
  refine ⟨f, hf, ?_⟩
  rcases h with ⟨it, hi, rfl, rfl⟩ | ⟨hi, rfl⟩
  · obtain ⟨k, v, rfl, -, -⟩ := S.all it (by rw [hi]; simp)
    have hm : m k = some v := (S.map k v).2 (by rw [hi]; simp)
    refine ⟨by show true = (m k).isSome; rw [hm]; rfl, fun _ => ?_⟩
    obtain ⟨q, e, n, -, S1⟩ := small_delete S hi
    exact ⟨q, e, n, S1⟩
  · have hm : m key = none := by
      cases h : m key with
      | none => rfl
      | some v =>
        have := (S.map key v).1 h
        rw [hi] at this
        rcases List.mem_append.1 this with h | h
        · exact absurd (hA _ h) (blt_irrefl _)
        · exact absurd (hB _ h) (blt_irrefl _)
    exact ⟨by show false = (m key).isSome; rw [hm]; rfl, (fun h => by cases h)⟩

/-- What `napr_db_get` finds in the leaf. -/
theorem small_get {K : List Bytes} {cap : Nat} {p : Page} {m : KvMap} (S : Small K cap p m) {key : Bytes} (h16 : key.length < 65536) :
    ∃ f, probe p key = .ok f ∧ ((∃ i, f = .notFound i ∧ m key = none) ∨ ∃ i v, f = .found i ∧ m key = some v ∧ leafNode p i = .ok (key, v)) := by
  obtain ⟨f, hf, A, B, hA, hB, h⟩ := probe_spec S.wf S.sorted h16
  refine ⟨f, hf, ?_⟩
  rcases h with ⟨it, hi, rfl, rfl⟩ | ⟨hi, rfl⟩
  · obtain ⟨k, v, rfl, -, -⟩ := S.all it (by rw [hi]; simp)
    exact .inr ⟨_, v, rfl, (S.map k v).2 (by rw [hi]; simp), leafNode_spec S.wf S.leaf (by unfold kvs; rw [hi]; simp [Item.key, Item.val])⟩
  · refine .inl ⟨_, rfl, ?_⟩
    cases h : m key with
    | none => rfl
    | some v =>
      have := (S.map key v).1 h
      rw [hi] at this
      rcases List.mem_append.1 this with h | h
      · exact absurd (hA _ h) (blt_irrefl _)
      · exact absurd (hB _ h) (blt_irrefl _)

/-- An empty leaf. -/
theorem small_empty (K : List Bytes) (cap : Nat) {no : Nat} (hno : no < 2 ^ 64) : Small K cap (emptyPage true no) (fun _ => none) := by
  have hf := emptyPage_fields true no hno
  have hi := emptyPage_items true no hno
  refine ⟨emptyPage_wf _ _ hno, emptyPage_isLeaf _ _ hno, by unfold keys; rw [hi]; exact List.Pairwise.nil, by rw [hi]; simp, by rw [hi]; simp, ?_⟩
  rw [hi]
  have hlow := (emptyPage_wf true no hno).low
  unfold Verif.Page.room
  rw [hlow, hf.2.1, hf.2.2.2.1]
  rfl

end Verif.Db.Wear
