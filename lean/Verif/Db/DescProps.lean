import Verif.Db.Desc

/-!
# Loading in descending order (C104)
-/

namespace Verif.Db

open Verif.Page

theorem desc_go {env : Env} {fuel n : Nat} (ps : List (Bytes × Bytes)) : ∀ {t : Txn} {p : Page} {l : List (Bytes × Bytes)},
    OneLeaf t n p l → (ps.map Prod.fst).Pairwise (fun a b => b < a) → (∀ e ∈ ps, ∀ x ∈ l, e.1 < x.1) → cost l + cost ps ≤ 4078 →
    ∃ t' p', puts env fuel t ps = .ok (List.replicate ps.length .success, t') ∧ OneLeaf t' n p' (ps.reverse ++ l) ∧ t'.newLast = t.newLast := by
  induction ps with
  | nil => intro t p l h _ _ _; exact ⟨t, p, rfl, h, rfl⟩
  | cons e ps ih =>
    obtain ⟨key, val⟩ := e
    intro t p l h hd hlt hc
    rw [List.map_cons, List.pairwise_cons] at hd
    have hce : cost ((key, val) :: ps) = 6 + key.length + val.length + cost ps := by simp [cost]
    obtain ⟨t1, p1, a1, a2, a3⟩ := h.step (env := env) (fuel := fuel) (key := key) (val := val) (hlt _ List.mem_cons_self) (by omega)
    obtain ⟨t', p', b1, b2, b3⟩ := ih a2 hd.2 (by
      intro e he x hx
      rcases List.mem_cons.1 hx with rfl | hx
      · exact hd.1 e.1 (List.mem_map_of_mem he)
      · exact hlt e (List.mem_cons_of_mem _ he) x hx) (by
      have : cost ((key, val) :: l) = 6 + key.length + val.length + cost l := by simp [cost]
      omega)
    refine ⟨t', p', ?_, by simpa using b2, by rw [b3, a3]⟩
    unfold puts
    simp only [a1, b1, Res.ok_bind]
    rfl

theorem cost_mem {l : List (Bytes × Bytes)} {e : Bytes × Bytes} (h : e ∈ l) : 6 + e.1.length + e.2.length ≤ cost l := by
  induction l with
  | nil => cases h
  | cons x l ih =>
    have hc : cost (x :: l) = 6 + x.1.length + x.2.length + cost l := by simp [cost]
    rcases List.mem_cons.1 h with rfl | h
    · omega
    · have := ih h; omega

theorem lookup_of_mem {l : List (Bytes × Bytes)} (hs : Ascending l) {e : Bytes × Bytes} (he : e ∈ l) : l.lookup e.1 = some e.2 := by
  induction l with
  | nil => cases he
  | cons x l ih =>
    unfold Ascending at hs
    rw [List.map_cons, sorted_cons] at hs
    rcases List.mem_cons.1 he with rfl | he'
    · rw [List.lookup_cons]; simp
    · have hne : e.1 ≠ x.1 := by
        intro h
        have := hs.1 e.1 (List.mem_map_of_mem he')
        rw [h] at this
        exact blt_irrefl _ this
      rw [List.lookup_cons, show (e.1 == x.1) = false by simpa using hne]
      exact ih hs.2 he'

/-- C104, the pairs that fill the first page: on an empty database without a Free DB, pairs with strictly descending
keys are all stored as long as they fit one page together (6 bytes per pair, the keys and the values, up to 4078 bytes), and every one is found. -/
theorem descending_page_partial {env : Env} {t : Txn} {fuel fuel' : Nat} {ps : List (Bytes × Bytes)}
    (hw : t.rdonly = false) (h0 : t.root = 0) (hf : t.freeRoot = 0) (h64 : t.newLast + 1 < 2 ^ 64)
    (hd : (ps.map Prod.fst).Pairwise (fun a b => b < a)) (hc : cost ps ≤ 4078) (hfu : 0 < fuel') :
    ∃ t', puts env (fuel + 1) t ps = .ok (List.replicate ps.length .success, t') ∧
      ∀ e ∈ ps, get env t' fuel' e.1 = .ok (.ok e.2) := by
  cases ps with
  | nil => exact ⟨t, rfl, by simp⟩
  | cons e ps =>
    obtain ⟨key, val⟩ := e
    have hce : cost ((key, val) :: ps) = 6 + key.length + val.length + cost ps := by simp [cost]
    rw [List.map_cons, List.pairwise_cons] at hd
    obtain ⟨t1, p1, a1, a2, a3⟩ := OneLeaf.start (env := env) (fuel := fuel) (key := key) (val := val) hw h0 hf h64 (by omega)
    obtain ⟨t', p', b1, b2, -⟩ := desc_go (env := env) (fuel := fuel + 1) ps a2 hd.2 (by
      intro e he x hx
      rw [List.mem_singleton] at hx; subst hx
      exact hd.1 e.1 (List.mem_map_of_mem he)) (by
      have : cost [(key, val)] = 6 + key.length + val.length := by simp [cost]
      omega)
    refine ⟨t', ?_, ?_⟩
    · unfold puts
      simp only [a1, b1, Res.ok_bind]
      rfl
    · intro e he
      have hh := OneLeaf.tree (env := env) b2.rdonly b2.root b2.pos b2.last b2.dirty b2.no b2.wf b2.leaf b2.its b2.sorted
      have hm : e ∈ ps.reverse ++ [(key, val)] := by simpa using List.mem_cons.1 he |>.symm
      have hlen : e.1.length < 65536 := by
        have := cost_mem he
        omega
      rw [get_spec hh hlen hfu, answer, lookup_of_mem b2.sorted hm]

/-- C104 is false of the code, for every descending load: on an empty database without a Free DB, let pairs `ps` (two or more) with
strictly descending keys fill one page, and let a pair with a still smaller key not fit even with the
slots (two bytes each) of the larger half gone.  Then storing that pair fails for lack of space, although half of the pairs have left the page, and
the larger half of the pairs is no longer found in the transaction, while the smaller half is. -/
theorem descending_refused {env : Env} {t : Txn} {fuel fuel' : Nat} {ps : List (Bytes × Bytes)} {key val : Bytes}
    (hw : t.rdonly = false) (h0 : t.root = 0) (hf : t.freeRoot = 0) (h64 : t.newLast + 2 < 2 ^ 64)
    (hd : ((ps ++ [(key, val)]).map Prod.fst).Pairwise (fun a b => b < a)) (h2 : 2 ≤ ps.length) (hc : cost ps ≤ 4078)
    (hsz : 4 + key.length + val.length < 65536)
    (hno : 4078 + 2 * (ps.length - ps.length / 2) < cost (ps ++ [(key, val)])) (hfu : 0 < fuel') :
    ∃ t', puts env (fuel + 1) t (ps ++ [(key, val)]) = .ok (List.replicate ps.length .success ++ [.nospc], t') ∧
      (∀ e ∈ ps.take (ps.length - ps.length / 2), get env t' fuel' e.1 = .ok (.error .notfound)) ∧
      (∀ e ∈ ps.drop (ps.length - ps.length / 2), get env t' fuel' e.1 = .ok (.ok e.2)) ∧
      get env t' fuel' key = .ok (.error .notfound) := by
  cases ps with
  | nil => simp at h2
  | cons e ps =>
    obtain ⟨k0, v0⟩ := e
    have hce : cost ((k0, v0) :: ps) = 6 + k0.length + v0.length + cost ps := by simp [cost]
    rw [List.map_append, List.pairwise_append] at hd
    obtain ⟨hd1, -, hd3⟩ := hd
    have hd1' := hd1
    rw [List.map_cons, List.pairwise_cons] at hd1
    have hkey : ∀ e ∈ (k0, v0) :: ps, key < e.1 := fun e he => hd3 e.1 (List.mem_map_of_mem he) key (by simp)
    rw [cost_snoc] at hno
    obtain ⟨t1, p1, a1, a2, a3⟩ := OneLeaf.start (env := env) (fuel := fuel) (key := k0) (val := v0) hw h0 hf (by omega) (by omega)
    obtain ⟨t2, p2, b1, b2, b3⟩ := desc_go (env := env) (fuel := fuel + 1) ps a2 hd1.2 (by
      intro e he x hx
      rw [List.mem_singleton] at hx; subst hx
      exact hd1.1 e.1 (List.mem_map_of_mem he)) (by
      have : cost [(k0, v0)] = 6 + k0.length + v0.length := by simp [cost]
      omega)
    have hlen : (ps.reverse ++ [(k0, v0)]).length = ((k0, v0) :: ps).length := by simp
    have hcr : cost (ps.reverse ++ [(k0, v0)]) = cost ((k0, v0) :: ps) := by
      rw [cost_snoc, hce]
      have : cost ps.reverse = cost ps := by unfold cost; rw [List.map_reverse, List.sum_reverse]
      omega
    obtain ⟨t', c1, c2⟩ := b2.refuse (env := env) (fuel := fuel) (key := key) (val := val) (by rw [hlen]; exact h2)
      (by intro e he; exact hkey e (by simpa using (List.mem_append.1 he).symm)) hsz (by omega) (by rw [hlen, hcr]; exact hno)
    have hrev : (ps.reverse ++ [(k0, v0)]) = ((k0, v0) :: ps).reverse := by simp
    rw [hrev, List.length_reverse] at c2
    have hsorted : Ascending ((k0, v0) :: ps).reverse := by rw [← hrev]; exact b2.sorted
    generalize hP : (k0, v0) :: ps = P at *
    have htd : P.reverse.take (P.length / 2) = (P.drop (P.length - P.length / 2)).reverse := by
      rw [List.take_reverse]
    rw [htd] at c2
    have hasc : Ascending (P.drop (P.length - P.length / 2)).reverse := by
      rw [← htd]; unfold Ascending; rw [List.map_take]; exact List.Pairwise.sublist (List.take_sublist _ _) hsorted
    have hlenk : ∀ e ∈ P, e.1.length < 65536 := by
      intro e he
      have := cost_mem he
      omega
    have habs : ∀ k : Bytes, (∀ e ∈ P.drop (P.length - P.length / 2), e.1 ≠ k) → (P.drop (P.length - P.length / 2)).reverse.lookup k = none := by
      intro k hk
      rw [List.lookup_eq_none_iff]
      intro e he
      simpa using (hk e (List.mem_reverse.1 he)).symm
    refine ⟨t', ?_, ?_, ?_, ?_⟩
    · have hsteps : puts env (fuel + 1) t ((k0, v0) :: ps ++ [(key, val)]) =
          .ok (List.replicate ((k0, v0) :: ps).length .success ++ [.nospc], t') := by
        have happ : ∀ (A : List (Bytes × Bytes)) (t : Txn) (sts : List Status) (t1 : Txn), puts env (fuel + 1) t A = .ok (sts, t1) →
            puts env (fuel + 1) t1 [(key, val)] = .ok ([.nospc], t') → puts env (fuel + 1) t (A ++ [(key, val)]) = .ok (sts ++ [.nospc], t') := by
          intro A
          induction A with
          | nil => intro t sts t1 h1 h2; cases h1; exact h2
          | cons a A ih =>
            intro t sts t1 h1 h2
            rw [puts] at h1
            obtain ⟨x, e1, h1⟩ := Res.bind_eq_ok.1 h1
            obtain ⟨y, e2, h1⟩ := Res.bind_eq_ok.1 h1
            cases h1
            rw [List.cons_append, puts, e1, Res.ok_bind, ih _ _ _ e2 h2, Res.ok_bind]
            rfl
        apply happ _ _ _ t2
        · unfold puts
          simp only [a1, b1, Res.ok_bind]
          rfl
        · unfold puts puts
          simp only [c1, Res.ok_bind]
      rw [← hP]; exact hsteps
    · intro e he
      have hm : e ∈ P := List.mem_of_mem_take he
      rw [get_spec c2 (hlenk e hm) hfu, answer, habs]
      intro x hx heq
      have hsp : P = P.take (P.length - P.length / 2) ++ P.drop (P.length - P.length / 2) := (List.take_append_drop _ _).symm
      rw [hsp, List.map_append, List.pairwise_append] at hd1'
      have := hd1'.2.2 e.1 (List.mem_map_of_mem he) x.1 (List.mem_map_of_mem hx)
      rw [heq] at this
      exact blt_irrefl _ this
    · intro e he
      have hm : e ∈ P := List.mem_of_mem_drop he
      rw [get_spec c2 (hlenk e hm) hfu, answer, lookup_of_mem hasc (List.mem_reverse.2 he)]
    · rw [get_spec c2 (by omega) hfu, answer, habs]
      intro x hx heq
      have := hkey x (List.mem_of_mem_drop hx)
      rw [heq] at this
      exact blt_irrefl _ this

/-! ### Example -/

/-- Thirteen pairs with the keys 30, 29, …, 18 and values of 300 bytes. -/
def thirteen : List (Bytes × Bytes) := (List.range 13).map fun i => ([UInt8.ofNat (30 - i)], List.replicate 300 0)

/-- Thirteen such pairs are stored; the fourteenth, with key 17, is refused, and seven of the thirteen are gone. -/
example (fuel : Nat) : ∃ t', puts env0 (fuel + 1) txn0 (thirteen ++ [([17], List.replicate 300 0)]) =
      .ok (List.replicate 13 .success ++ [.nospc], t') ∧
    (∀ e ∈ thirteen.take 7, get env0 t' 1 e.1 = .ok (.error .notfound)) ∧
    (∀ e ∈ thirteen.drop 7, get env0 t' 1 e.1 = .ok (.ok e.2)) ∧ get env0 t' 1 [17] = .ok (.error .notfound) := by
  have hc : cost thirteen = 3991 := by decide +kernel
  exact descending_refused (ps := thirteen) (key := [17]) (val := List.replicate 300 0) rfl rfl rfl (by decide) (by decide +kernel) (by decide)
    (by omega) (by decide +kernel) (by decide +kernel) (by omega)

end Verif.Db
