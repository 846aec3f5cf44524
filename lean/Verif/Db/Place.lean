import Verif.Db.Sheet
import Verif.Db.SplitLemmas

/-!
# Helper lemmas: where the entries of a page lie

Page operations put entries one below the other and move them by the sizes of others.  So if all sizes are multiples of some number, so are all positions.
-/

namespace Verif.Db

open Verif.Page

/-- The entries of the page, and the place below which the next one goes, lie at multiples of `m`. -/
structure Lies (m : Nat) (p : Page) : Prop where
  top : m ∣ upper p
  offs : ∀ i < numKeys p, m ∣ slot p i

variable {m : Nat} {p : Page}

theorem empty_lies (hm : m ∣ 4096) (leaf : Bool) {no : Nat} (hno : no < 2 ^ 64) : Lies m (emptyPage leaf no) := by
  have hf := emptyPage_fields leaf no hno
  exact ⟨by rw [hf.2.2.2.1]; exact hm, fun i hi => by rw [hf.2.1] at hi; omega⟩

theorem insert_lies (wf : WF p) (L : Lies m p) {i : Nat} (hi : i ≤ numKeys p) {it : Item} (hk : it.hasData = isLeaf p) (hs : it.size < 65536) (hc : it.child < 2 ^ 64)
    (hd : m ∣ it.size) {q : Page} (e : insert p i it = .ok (.ok, q)) : Lies m q := by
  by_cases hr : room p < it.size + 2
  · rw [insert_nospc wf hk (by rw [Nat.mod_eq_of_lt hs]; exact hr)] at e; cases e
  · obtain ⟨q', e', ha, -⟩ := insert_added wf hi hk hs hc (by omega)
    rw [e'] at e; cases e
    have hu := (Nat.dvd_add_iff_left hd).2 (ha.us ▸ L.top)
    refine ⟨by rw [ha.up]; exact hu, fun j hj => ?_⟩
    rw [ha.nk] at hj
    rw [ha.sl j (by omega)]
    split
    · exact L.offs j (by omega)
    · split
      · exact hu
      · exact L.offs _ (by omega)

theorem leaf_size {it : Item} (h : it.hasData = true) : it.size = 4 + it.key.length + it.val.length := by
  cases it with
  | leaf k v => rfl
  | branch k c => cases h

theorem item_size_leaf {it : Item} (hl : isLeaf p = true) (hi : it ∈ items p) : it.size = 4 + it.key.length + it.val.length := by
  apply leaf_size
  obtain ⟨i, h, rfl⟩ := List.mem_iff_getElem.1 hi
  rw [items_getElem, hl]; rfl

theorem item_size_dvd (hd : ∀ it ∈ items p, m ∣ it.size) {i : Nat} (hi : i < numKeys p) : m ∣ nodeSize p (isLeaf p) (slot p i) := by
  have hi' : i < (items p).length := by simpa using hi
  have := hd (items p)[i] (List.getElem_mem hi')
  rw [items_getElem, itemAt_size] at this
  exact this

theorem delete_lies (wf : WF p) (L : Lies m p) (hd : ∀ it ∈ items p, m ∣ it.size) {i : Nat} (hi : i < numKeys p) {q : Page} (e : delete p i = .ok (.ok, q)) : Lies m q := by
  obtain ⟨q', e', hr⟩ := delete_removed wf hi
  rw [e'] at e; cases e
  have hs := item_size_dvd hd hi
  refine ⟨by rw [hr.up]; exact Nat.dvd_add L.top hs, fun j hj => ?_⟩
  rw [hr.sl j hj]
  have hnk := hr.nk
  have hk : (if j < i then j else j + 1) < numKeys p := by split <;> omega
  generalize (if j < i then j else j + 1) = k at hk ⊢
  split
  · exact Nat.dvd_add (L.offs _ hk) hs
  · exact L.offs _ hk

theorem pack_dvd : ∀ (l : List Item) (u : Nat), m ∣ u → (∀ it ∈ l, m ∣ it.size) → ∀ o ∈ pack u l, m ∣ o
  | [], _, _, _ => fun o h => by cases h
  | it :: l, u, hu, hd => by
    intro o ho
    have h1 := Nat.dvd_sub hu (hd it (List.mem_cons_self ..))
    rw [pack] at ho
    rcases List.mem_cons.1 ho with rfl | ho
    · exact h1
    · exact pack_dvd l _ h1 (fun x hx => hd x (List.mem_cons_of_mem _ hx)) o ho

theorem total_dvd : ∀ (l : List Item), (∀ it ∈ l, m ∣ it.size) → m ∣ total l
  | [], _ => by simp [total]
  | it :: l, hd => by
    have := total_dvd l fun x hx => hd x (List.mem_cons_of_mem _ hx)
    unfold total at this ⊢
    rw [List.map_cons, List.sum_cons]
    exact Nat.dvd_add (hd it (List.mem_cons_self ..)) this

theorem fold_dvd (l : List Nat) : ∀ (a : Nat), m ∣ a → (∀ o ∈ l, m ∣ o) → m ∣ l.foldl (fun m o => if o < m then o else m) a := by
  induction l with
  | nil => intro a ha _; exact ha
  | cons o l ih =>
    intro a ha h
    rw [List.foldl_cons]
    refine ih _ ?_ fun x hx => h x (List.mem_cons_of_mem _ hx)
    split
    · exact h o (List.mem_cons_self ..)
    · exact ha

theorem lies_rep {a : Sheet} (h : Rep p a) : Lies m p ↔ m ∣ a.top ∧ ∀ o ∈ a.offs, m ∣ o := by
  rw [← h.top, ← h.offs]
  constructor
  · intro L
    refine ⟨L.top, fun o ho => ?_⟩
    obtain ⟨i, hi, rfl⟩ := List.mem_map.1 ho
    exact L.offs i (List.mem_range.1 hi)
  · intro L
    exact ⟨L.1, fun i hi => L.2 _ (List.mem_map.2 ⟨i, List.mem_range.2 hi, rfl⟩)⟩

theorem split_lies (hm : m ∣ 4096) (wf : WF p) (hl : isLeaf p = true) (L : Lies m p) (hd : ∀ it ∈ items p, m ∣ it.size) {no : Nat} (hno : no < 2 ^ 64) {s : Split}
    (e : splitLeaf p no = .ok (some s)) : Lies m s.left ∧ Lies m s.right := by
  have h : Rep p ⟨true, items p, offsets p, upper p⟩ := ⟨wf, hl, rfl, rfl, rfl⟩
  by_cases h0 : items p = []
  · have hz : numKeys p = 0 := by rw [← items_length, h0]; rfl
    unfold splitLeaf at e
    rw [hl, hz] at e
    simp only [Bool.not_true, Bool.false_eq_true, if_false, Nat.zero_div, Nat.sub_self, moveNodes, Res.ok_bind] at e
    obtain ⟨l, e1, e⟩ := Res.bind_eq_ok.1 e
    obtain ⟨d, -, e⟩ := Res.bind_eq_ok.1 e
    cases e
    refine ⟨?_, empty_lies hm _ hno⟩
    refine (lies_rep (shrink_rep h (Nat.zero_le _) e1)).2 ⟨?_, ?_⟩
    · exact fold_dvd _ _ hm (by simp)
    · simp
  · obtain ⟨s', e', r1, r2, -⟩ := split_rep h h0 hno
    simp only [if_true] at e'
    rw [e'] at e; cases e
    have L' := (lies_rep h).1 L
    refine ⟨(lies_rep r1).2 ⟨?_, ?_⟩, (lies_rep r2).2 ⟨?_, ?_⟩⟩
    · exact fold_dvd _ _ hm fun o ho => L'.2 o (List.mem_of_mem_take ho)
    · exact fun o ho => L'.2 o (List.mem_of_mem_take ho)
    · exact Nat.dvd_sub hm (total_dvd _ fun x hx => hd x (List.mem_of_mem_drop hx))
    · exact pack_dvd _ _ hm fun x hx => hd x (List.mem_of_mem_drop hx)

end Verif.Db
