import Verif.UnionFind.Model
import Verif.UnionFind.Spec

/-! Helper lemmas: the forest invariant, `_find`, `_join`. -/

namespace Verif.UnionFind

attribute [local irreducible] W

/-- Number of elements below `n` with root `a`. -/
def csize (n : Nat) (r : Nat → Nat) (a : Nat) : Nat := (List.range n).countP (fun y => decide (r y = a))

/-- Number of roots below `n`. -/
def nroots (n : Nat) (r : Nat → Nat) : Nat := (List.range n).countP (fun y => decide (r y = y))

theorem csize_le (n : Nat) (r : Nat → Nat) (a : Nat) : csize n r a ≤ n := by
  have := List.countP_le_length (p := fun y => decide (r y = a)) (l := List.range n)
  simpa [csize] using this

theorem nroots_le (n : Nat) (r : Nat → Nat) : nroots n r ≤ n := by
  have := List.countP_le_length (p := fun y => decide (r y = y)) (l := List.range n)
  simpa [nroots] using this

/-- The forest invariant: `r` is the root function, `ρ` a potential that grows towards the roots. -/
structure CInv (c : Core) (n : Nat) (r ρ : Nat → Nat) : Prop where
  lenP : c.parent.length = n
  lenR : c.rank.length = n
  nW : n < W
  par : ∀ x, x < n → ∃ p, c.parent[x]? = some p ∧ p < n ∧ r p = r x ∧ (p = x → r x = x) ∧ (p ≠ x → ρ x < ρ p)
  mono : ∀ x, x < n → x ≠ r x → ρ x < ρ (r x)
  root : ∀ x, x < n → r x < n ∧ r (r x) = r x ∧ c.parent[r x]? = some (r x)
  rk : ∀ x, x < n → ∃ k, c.rank[x]? = some k ∧ 1 ≤ k
  size : ∀ x, x < n → r x = x → c.rank[x]? = some (csize n r x) ∧ 2 ^ ρ x ≤ csize n r x
  out : ∀ x, n ≤ x → r x = x ∧ ρ x = 0

theorem CInv.rd_rank {c n r ρ} (h : CInv c n r ρ) (x : Nat) (hx : x < n) : ∃ k, rd c.rank x = .ok k ∧ 1 ≤ k := by
  obtain ⟨k, h1, h2⟩ := h.rk x hx
  exact ⟨k, by simp [rd, h1], h2⟩

theorem CInv.rd_root {c n r ρ} (h : CInv c n r ρ) (x : Nat) (hx : x < n) (hr : r x = x) :
    rd c.rank x = .ok (csize n r x) := by
  simp [rd, (h.size x hx hr).1]

theorem CInv.rho_bound {c n r ρ} (h : CInv c n r ρ) (x : Nat) (hx : x < n) : 2 ^ ρ (r x) ≤ csize n r (r x) :=
  (h.size (r x) (h.root x hx).1 (h.root x hx).2.1).2

theorem CInv.rho_lt {c n r ρ} (h : CInv c n r ρ) (x : Nat) (hx : x < n) : ρ (r x) < n := by
  have h1 := h.rho_bound x hx
  have h2 := csize_le n r (r x)
  have h3 : ρ (r x) < 2 ^ ρ (r x) := Nat.lt_two_pow_self
  omega

theorem CInv.setRank {c n r ρ} (h : CInv c n r ρ) (x k : Nat) (hx : x < n) (hr : r x ≠ x) (hk : 1 ≤ k) :
    CInv { c with rank := c.rank.set x k } n r ρ where
  lenP := h.lenP
  lenR := by simpa using h.lenR
  nW := h.nW
  par := h.par
  mono := h.mono
  root := h.root
  rk := by
    intro y hy
    by_cases hxy : x = y
    · subst hxy
      exact ⟨k, by rw [List.getElem?_set_self (by have := h.lenR; omega)], hk⟩
    · rw [List.getElem?_set_ne hxy]; exact h.rk y hy
  size := by
    intro y hy hry
    have hxy : x ≠ y := by intro e; subst e; exact hr hry
    rw [List.getElem?_set_ne hxy]; exact h.size y hy hry
  out := h.out

theorem CInv.setParent {c n r ρ} (h : CInv c n r ρ) (x : Nat) (hx : x < n) (hr : r x ≠ x) :
    CInv { c with parent := c.parent.set x (r x) } n r ρ where
  lenP := by simpa using h.lenP
  lenR := h.lenR
  nW := h.nW
  par := by
    intro y hy
    by_cases hxy : x = y
    · subst hxy
      refine ⟨r x, by rw [List.getElem?_set_self (by have := h.lenP; omega)], (h.root x hx).1, (h.root x hx).2.1,
        fun e => e, fun _ => h.mono x hx (Ne.symm hr)⟩
    · simp only [List.getElem?_set_ne hxy]; exact h.par y hy
  mono := h.mono
  root := by
    intro y hy
    obtain ⟨h1, h2, h3⟩ := h.root y hy
    refine ⟨h1, h2, ?_⟩
    have hxy : x ≠ r y := by intro e; subst e; exact hr h2
    simpa only [List.getElem?_set_ne hxy] using h3
  rk := h.rk
  size := h.size
  out := h.out

/-- `_find` returns the root and keeps the invariant with the same root function. -/
theorem CInv.findFuel {n r ρ} (fuel : Nat) : ∀ (c : Core) (x : Nat), CInv c n r ρ → x < n →
    ρ (r x) - ρ x < fuel →
    ∃ c', findFuel fuel c x = .ok (c', r x) ∧ CInv c' n r ρ ∧ c'.compress = c.compress ∧
      (c.compress = true → x ≠ r x → c'.rank[x]? = some 1) := by
  induction fuel with
  | zero => intro c x _ _ h; omega
  | succ fuel ih =>
    intro c x h hx hf
    obtain ⟨p, hp1, hp2, hp3, hp4, hp5⟩ := h.par x hx
    obtain ⟨k, hk1, hk2⟩ := h.rd_rank x hx
    obtain ⟨k', hk1', hk2'⟩ := h.rd_rank p hp2
    have hrp : rd c.parent x = .ok p := by simp [rd, hp1]
    unfold UnionFind.findFuel
    rw [hrp]; simp only [Res.bind_ok]
    rw [hk1]; simp only [Res.bind_ok]
    rw [hk1']; simp only [Res.bind_ok]
    by_cases hxp : x = p
    · have hrx := hp4 hxp.symm
      rw [if_pos hxp]
      exact ⟨c, by rw [hrx], h, rfl, fun _ h' => absurd hrx.symm h'⟩
    · rw [if_neg hxp]
      have hrho := hp5 (Ne.symm hxp)
      have hrx : r x ≠ x := by
        intro e
        have : c.parent[r x]? = some (r x) := (h.root x hx).2.2
        rw [e, hp1] at this
        injection this with this
        exact hxp this.symm
      have hmono := h.mono x hx (Ne.symm hrx)
      have hrhop : ρ p ≤ ρ (r p) := by
        by_cases e : p = r p
        · exact Nat.le_of_eq (congrArg ρ e)
        · exact Nat.le_of_lt (h.mono p hp2 e)
      rw [hp3] at hrhop
      obtain ⟨c1, e1, i1, cc1, rk1⟩ := ih c p h hp2 (by rw [hp3]; omega)
      rw [hp3] at e1 rk1
      by_cases hc : c.compress = true
      · rw [if_pos hc, e1]
        simp only [Res.bind_ok]
        by_cases hroot : r x ≠ p
        · rw [if_pos hroot]
          have hrk := rk1 hc (Ne.symm hroot)
          have e2 : rd c1.rank p = .ok 1 := by simp [rd, hrk]
          obtain ⟨k1, hk11, _⟩ := i1.rd_rank x hx
          rw [e2]; simp only [Res.bind_ok]
          rw [hk11]; simp only [Res.bind_ok]
          rw [if_neg (by omega)]
          obtain ⟨hr1, hr2, hr3⟩ := i1.root x hx
          have hlenR := i1.lenR
          have hlenP := i1.lenP
          unfold joinSet
          have e3 : rd (c1.rank.set x 0) x = .ok 0 := by
            simp [rd, List.getElem?_set_self (show x < c1.rank.length by omega)]
          have e4 : rd (c1.rank.set x 0) (r x) = .ok (csize n r (r x)) := by
            simp only [rd, List.getElem?_set_ne (Ne.symm hrx), (i1.size (r x) hr1 hr2).1]
          have e5 : rd c1.parent x = .ok (c1.parent[x]'(by omega)) := rd_lt (by omega)
          simp only [e3, e4, e5, Res.bind_ok]
          refine ⟨_, rfl, ?_, cc1, fun _ _ => ?_⟩
          · have e6 : (((c1.rank.set x 0).set (r x) ((csize n r (r x) + 0) % W)).set x 1) = c1.rank.set x 1 := by
              apply List.ext_getElem?
              intro i
              by_cases h1 : x = i
              · subst h1
                rw [List.getElem?_set_self (by simp; omega), List.getElem?_set_self (by omega)]
              · rw [List.getElem?_set_ne h1, List.getElem?_set_ne h1]
                by_cases h2 : r x = i
                · subst h2
                  rw [List.getElem?_set_self (by simp; omega), (i1.size (r x) hr1 hr2).1, Nat.add_zero,
                    Nat.mod_eq_of_lt (by have := csize_le n r (r x); have := h.nW; omega)]
                · rw [List.getElem?_set_ne h2, List.getElem?_set_ne h1]
            rw [e6]
            exact (i1.setParent x hx hrx).setRank x 1 hx hrx (by omega)
          · exact List.getElem?_set_self (by simp only [List.length_set]; omega)
        · rw [if_neg hroot]
          refine ⟨_, rfl, i1.setRank x 1 hx hrx (by omega), cc1, fun _ _ => ?_⟩
          exact List.getElem?_set_self (by have := i1.lenR; omega)
      · rw [if_neg hc, e1]
        exact ⟨c1, rfl, i1, cc1, fun h' => absurd h' hc⟩

theorem CInv.find {c n r ρ} (h : CInv c n r ρ) (x : Nat) (hx : x < n) :
    ∃ c', find c x = .ok (c', r x) ∧ CInv c' n r ρ ∧ c'.compress = c.compress := by
  have := h.rho_lt x hx
  have hl := h.lenP
  obtain ⟨c', h1, h2, h3, _⟩ := CInv.findFuel (c.parent.length + 1) c x h hx (by omega)
  exact ⟨c', h1, h2, h3⟩

theorem CInv.find2 {c n r ρ} (h : CInv c n r ρ) (o : Bool) (a b : Nat) (ha : a < n) (hb : b < n) :
    ∃ c', find2 o c a b = .ok (c', r a, r b) ∧ CInv c' n r ρ ∧ c'.compress = c.compress := by
  unfold UnionFind.find2
  cases o
  · obtain ⟨c1, e1, i1, q1⟩ := h.find b hb
    obtain ⟨c2, e2, i2, q2⟩ := i1.find a ha
    refine ⟨c2, ?_, i2, by rw [q2, q1]⟩
    simp [e1, e2]
  · obtain ⟨c1, e1, i1, q1⟩ := h.find a ha
    obtain ⟨c2, e2, i2, q2⟩ := i1.find b hb
    refine ⟨c2, ?_, i2, by rw [q2, q1]⟩
    simp [e1, e2]

theorem CInv.sameSet {c n r ρ} (h : CInv c n r ρ) (o : Bool) (a b : Nat) (ha : a < n) (hb : b < n) :
    ∃ c', sameSet o c a b = .ok (c', decide (r a = r b)) ∧ CInv c' n r ρ ∧ c'.compress = c.compress := by
  unfold UnionFind.sameSet
  by_cases hab : a = b
  · subst hab; exact ⟨c, by simp, h, rfl⟩
  · obtain ⟨c', e, i, q⟩ := h.find2 o a b ha hb
    exact ⟨c', by simp [hab, e], i, q⟩

/-- The root function after making `slave` a child of `master`. -/
def mergeR (r : Nat → Nat) (slave master : Nat) : Nat → Nat := fun x => if r x = slave then master else r x

/-- The potential after making `slave` a child of `master`. -/
def mergeRho (ρ : Nat → Nat) (slave master : Nat) : Nat → Nat :=
  fun x => if x = master then max (ρ master) (ρ slave + 1) else ρ x

theorem countP_merge (r : Nat → Nat) (s m : Nat) (hsm : s ≠ m) (l : List Nat) :
    l.countP (fun y => decide (mergeR r s m y = m)) =
      l.countP (fun y => decide (r y = m)) + l.countP (fun y => decide (r y = s)) := by
  induction l with
  | nil => rfl
  | cons y l ih =>
    simp only [List.countP_cons, ih]
    unfold mergeR
    by_cases h1 : r y = s
    · have h2 : ¬ r y = m := by omega
      simp [h1, hsm]; omega
    · by_cases h2 : r y = m
      · simp only [h2, if_neg (Ne.symm hsm), decide_true, if_true, decide_eq_true_eq]; omega
      · simp [h1, h2]

theorem csize_merge_other (n : Nat) (r : Nat → Nat) (s m x : Nat) (hx : x ≠ s) (hm : x ≠ m) :
    csize n (mergeR r s m) x = csize n r x := by
  unfold csize
  congr 1
  funext y
  unfold mergeR
  by_cases h1 : r y = s
  · simp [h1]; omega
  · simp [h1]

theorem countP_eq_range (n s : Nat) : (List.range n).countP (fun y => decide (y = s)) = if s < n then 1 else 0 := by
  induction n with
  | zero => rfl
  | succ n ih =>
    rw [List.range_succ, List.countP_append, ih]
    by_cases h : n = s
    · subst h; simp
    · have : decide (n = s) = false := by simpa using h
      simp only [List.countP_cons, List.countP_nil, this]
      by_cases h2 : s < n
      · simp [h2]; omega
      · simp [h2]; omega

theorem nroots_merge (n : Nat) (r : Nat → Nat) (s m : Nat) (hs : s < n) (hrs : r s = s) (hrm : r m = m)
    (hsm : s ≠ m) : nroots n (mergeR r s m) + 1 = nroots n r := by
  have key : ∀ l : List Nat, l.countP (fun y => decide (r y = y)) =
      l.countP (fun y => decide (mergeR r s m y = y)) + l.countP (fun y => decide (y = s)) := by
    intro l
    induction l with
    | nil => rfl
    | cons y l ih =>
      simp only [List.countP_cons, ih]
      unfold mergeR
      by_cases h1 : y = s
      · subst h1
        simp [hrs, Ne.symm hsm]; omega
      · by_cases h2 : r y = s
        · have h3 : m ≠ y := by intro e; subst e; omega
          have h4 : ¬ s = y := fun e => h1 e.symm
          simp [h1, h2, h3, h4]
        · simp [h1, h2]; omega
  have := key (List.range n)
  rw [countP_eq_range, if_pos hs] at this
  exact this.symm

theorem CInv.joinSet {c n r ρ} (h : CInv c n r ρ) (s m : Nat) (hs : s < n) (hm : m < n) (hrs : r s = s)
    (hrm : r m = m) (hsm : s ≠ m) (hle : csize n r s ≤ csize n r m) :
    ∃ c', joinSet c s m = .ok c' ∧ CInv c' n (mergeR r s m) (mergeRho ρ s m) ∧ c'.compress = c.compress := by
  have hlenP := h.lenP
  have hlenR := h.lenR
  have hnW := h.nW
  have hbs := (h.size s hs hrs).2
  have hbm := (h.size m hm hrm).2
  have hms : ¬ m = s := fun e => hsm e.symm
  have hcs : csize n (mergeR r s m) m = csize n r m + csize n r s := countP_merge r s m hsm _
  have hcle := csize_le n (mergeR r s m) m
  have hRm : ∀ x, ρ x ≤ mergeRho ρ s m x := by
    intro x; unfold mergeRho; split
    · next e => subst e; omega
    · exact Nat.le_refl _
  have hRne : ∀ x, x ≠ m → mergeRho ρ s m x = ρ x := by
    intro x hx; unfold mergeRho; rw [if_neg hx]
  have hRM : mergeRho ρ s m m = max (ρ m) (ρ s + 1) := by unfold mergeRho; rw [if_pos rfl]
  have hrM : mergeR r s m m = m := by unfold mergeR; rw [hrm, if_neg hms]
  unfold UnionFind.joinSet
  rw [h.rd_root s hs hrs, h.rd_root m hm hrm, rd_lt (show s < c.parent.length by omega)]
  simp only [Res.bind_ok]
  refine ⟨_, rfl, ?_, rfl⟩
  constructor
  · simpa using hlenP
  · simpa using hlenR
  · exact hnW
  · intro x hx
    by_cases hxs : s = x
    · subst hxs
      refine ⟨m, by rw [List.getElem?_set_self (by omega)], hm, ?_, fun e => absurd e hms, fun _ => ?_⟩
      · rw [hrM]; unfold mergeR; rw [if_pos hrs]
      · rw [hRne s hsm, hRM]; omega
    · simp only [List.getElem?_set_ne hxs]
      obtain ⟨p, h1, h2, h3, h4, h5⟩ := h.par x hx
      refine ⟨p, h1, h2, ?_, fun e => ?_, fun e => ?_⟩
      · unfold mergeR; rw [h3]
      · have := h4 e
        unfold mergeR; rw [this, if_neg (Ne.symm hxs)]
      · have hxm : x ≠ m := by
          intro e'; subst e'
          have := (h.root x hx).2.2
          rw [hrm, h1] at this
          injection this with this
          exact e this
        rw [hRne x hxm]
        exact Nat.lt_of_lt_of_le (h5 e) (hRm p)
  · intro x hx hne
    by_cases hxs : r x = s
    · have e : mergeR r s m x = m := by unfold mergeR; rw [if_pos hxs]
      rw [e] at hne ⊢
      rw [hRne x hne, hRM]
      by_cases hxx : x = s
      · subst hxx; omega
      · have := h.mono x hx (by rw [hxs]; exact hxx)
        rw [hxs] at this; omega
    · have e : mergeR r s m x = r x := by unfold mergeR; rw [if_neg hxs]
      rw [e] at hne ⊢
      have hxm : x ≠ m := by intro e'; subst e'; exact hne hrm.symm
      rw [hRne x hxm]
      exact Nat.lt_of_lt_of_le (h.mono x hx hne) (hRm _)
  · intro x hx
    obtain ⟨h1, h2, h3⟩ := h.root x hx
    by_cases hxs : r x = s
    · have e : mergeR r s m x = m := by unfold mergeR; rw [if_pos hxs]
      rw [e]
      refine ⟨hm, hrM, ?_⟩
      have := (h.root m hm).2.2
      rw [hrm] at this
      simpa only [List.getElem?_set_ne hsm] using this
    · have e : mergeR r s m x = r x := by unfold mergeR; rw [if_neg hxs]
      rw [e]
      refine ⟨h1, ?_, ?_⟩
      · unfold mergeR; rw [h2, if_neg hxs]
      · simpa only [List.getElem?_set_ne (Ne.symm hxs)] using h3
  · intro x hx
    by_cases hxm : m = x
    · subst hxm
      refine ⟨_, List.getElem?_set_self (by omega), ?_⟩
      rw [Nat.mod_eq_of_lt (by omega)]
      have : 0 < 2 ^ ρ m := Nat.two_pow_pos _
      omega
    · simp only [List.getElem?_set_ne hxm]; exact h.rk x hx
  · intro x hx hrx
    have hxs : r x ≠ s := by
      intro e
      have e' : mergeR r s m x = m := by unfold mergeR; rw [if_pos e]
      rw [e'] at hrx; subst hrx; omega
    have hrx' : r x = x := by
      have e : mergeR r s m x = r x := by unfold mergeR; rw [if_neg hxs]
      rw [← e]; exact hrx
    by_cases hxm : m = x
    · subst hxm
      rw [List.getElem?_set_self (by omega), hcs, Nat.mod_eq_of_lt (by omega)]
      refine ⟨rfl, ?_⟩
      rw [hRM]
      rcases Nat.le_total (ρ m) (ρ s + 1) with h5 | h5
      · rw [Nat.max_eq_right h5, Nat.pow_succ]; omega
      · rw [Nat.max_eq_left h5]; omega
    · simp only [List.getElem?_set_ne hxm]
      rw [csize_merge_other n r s m x (by omega) (Ne.symm hxm), hRne x (Ne.symm hxm)]
      exact h.size x hx hrx'
  · intro x hx
    obtain ⟨h1, h2⟩ := h.out x hx
    refine ⟨?_, ?_⟩
    · unfold mergeR; rw [h1, if_neg (by omega)]
    · rw [hRne x (by omega), h2]

/-- `_join` on two roots. -/
theorem CInv.joinRoots {c n r ρ} (h : CInv c n r ρ) (o : Bool) (k : Counters) (a b : Nat) (ha : a < n) (hb : b < n)
    (hra : r a = a) (hrb : r b = b) (hkd : k.disjoint = nroots n r) (hka : k.acorn < W) :
    ∃ c' k', joinRoots o c k a b = .ok (c', k', decide (a ≠ b)) ∧ c'.compress = c.compress ∧ k'.acorn = k.acorn ∧
      (a = b → CInv c' n r ρ ∧ k' = k) ∧
      (a ≠ b → ∃ s m ρ', ((s = a ∧ m = b) ∨ (s = b ∧ m = a)) ∧ CInv c' n (mergeR r s m) ρ' ∧
        k'.disjoint = nroots n (mergeR r s m)) := by
  have hnW := h.nW
  have pos : ∀ x, x < n → r x = x → csize n r x ≠ 0 := by
    intro x hx hrx
    have h1 := (h.size x hx hrx).2
    have h2 := Nat.two_pow_pos (ρ x)
    omega
  unfold UnionFind.joinRoots
  rw [h.rd_root a ha hra, h.rd_root b hb hrb]
  simp only [Res.bind_ok]
  obtain ⟨c1, e1, i1, q1⟩ := h.sameSet o a b ha hb
  rw [e1]
  simp only [Res.bind_ok, hra, hrb]
  by_cases hab : a = b
  · subst hab
    simp only [decide_true, Bool.not_true, Bool.false_eq_true, if_false]
    exact ⟨c1, k, by simp, q1, rfl, fun _ => ⟨i1, rfl⟩, fun e => absurd rfl e⟩
  · have hd : decide (a = b) = false := by simpa using hab
    simp only [hd, Bool.not_false, if_true, if_neg (pos a ha hra), if_neg (pos b hb hrb)]
    have hacorn : (k.acorn + W - (0 + 0)) % W = k.acorn := by
      have : k.acorn + W - (0 + 0) = k.acorn + W := by omega
      rw [this, Nat.add_mod_right, Nat.mod_eq_of_lt hka]
    have hdis : ∀ s m, s < n → r s = s → r m = m → s ≠ m →
        (k.disjoint + W - 1) % W = nroots n (mergeR r s m) := by
      intro s m hs hrs hrm hsm
      have := nroots_merge n r s m hs hrs hrm hsm
      have h2 := nroots_le n r
      have e : k.disjoint + W - 1 = nroots n (mergeR r s m) + W := by omega
      rw [e, Nat.add_mod_right, Nat.mod_eq_of_lt (by omega)]
    by_cases hle : csize n r a ≤ csize n r b
    · obtain ⟨c2, e2, i2, q2⟩ := i1.joinSet a b ha hb hra hrb hab hle
      rw [if_pos hle, e2]
      simp only [Res.bind_ok]
      refine ⟨c2, _, by rw [decide_eq_true hab], by rw [q2, q1], hacorn, fun e => absurd e hab,
        fun _ => ⟨a, b, _, .inl ⟨rfl, rfl⟩, i2, hdis a b ha hra hrb hab⟩⟩
    · obtain ⟨c2, e2, i2, q2⟩ := i1.joinSet b a hb ha hrb hra (Ne.symm hab) (by omega)
      rw [if_neg hle, e2]
      simp only [Res.bind_ok]
      refine ⟨c2, _, by rw [decide_eq_true hab], by rw [q2, q1], hacorn, fun e => absurd e hab,
        fun _ => ⟨b, a, _, .inr ⟨rfl, rfl⟩, i2, hdis b a hb hrb hra (Ne.symm hab)⟩⟩

/-- Adding one fresh singleton at the end. -/
theorem CInv.push {c n r ρ} (h : CInv c n r ρ) (hW : n + 1 < W) :
    CInv { c with parent := c.parent ++ [n], rank := c.rank ++ [1] } (n + 1) r ρ ∧
      nroots (n + 1) r = nroots n r + 1 := by
  have hlenP := h.lenP
  have hlenR := h.lenR
  have hroot : ∀ x, x < n → r x ≠ n := fun x hx => by have := (h.root x hx).1; omega
  have hself := h.out n (Nat.le_refl n)
  have hcs : ∀ x, x < n → csize (n + 1) r x = csize n r x := by
    intro x hx
    unfold csize
    rw [List.range_succ, List.countP_append]
    have : ¬ r n = x := by omega
    simp [this]
  have hcn : csize (n + 1) r n = 1 := by
    unfold csize
    rw [List.range_succ, List.countP_append]
    have : (List.range n).countP (fun y => decide (r y = n)) = 0 := by
      rw [List.countP_eq_zero]
      intro y hy
      simpa using hroot y (by simpa using hy)
    rw [this]; simp [hself.1]
  have getP : ∀ x, x < n → (c.parent ++ [n])[x]? = c.parent[x]? := fun x hx =>
    List.getElem?_append_left (by omega)
  have getR : ∀ x, x < n → (c.rank ++ [1])[x]? = c.rank[x]? := fun x hx =>
    List.getElem?_append_left (by omega)
  have getPn : (c.parent ++ [n])[n]? = some n := by rw [← hlenP]; simp
  have getRn : (c.rank ++ [1])[n]? = some 1 := by rw [← hlenR]; simp
  refine ⟨?_, ?_⟩
  · constructor
    · simp [hlenP]
    · simp [hlenR]
    · exact hW
    · intro x hx
      by_cases hxn : x = n
      · subst hxn
        exact ⟨x, getPn, by omega, rfl, fun _ => hself.1, fun e => absurd rfl e⟩
      · obtain ⟨p, h1, h2, h3⟩ := h.par x (by omega)
        exact ⟨p, by rw [getP x (by omega)]; exact h1, by omega, h3⟩
    · intro x hx hne
      by_cases hxn : x = n
      · subst hxn; exact absurd hself.1.symm hne
      · exact h.mono x (by omega) hne
    · intro x hx
      by_cases hxn : x = n
      · subst hxn
        rw [hself.1]; exact ⟨by omega, hself.1, getPn⟩
      · obtain ⟨h1, h2, h3⟩ := h.root x (by omega)
        exact ⟨by omega, h2, by rw [getP _ h1]; exact h3⟩
    · intro x hx
      by_cases hxn : x = n
      · subst hxn; exact ⟨1, getRn, by omega⟩
      · rw [getR x (by omega)]; exact h.rk x (by omega)
    · intro x hx hrx
      by_cases hxn : x = n
      · subst hxn
        rw [hcn, getRn, hself.2]; simp
      · rw [getR x (by omega), hcs x (by omega)]; exact h.size x (by omega) hrx
    · intro x hx; exact h.out x (by omega)
  · unfold nroots
    rw [List.range_succ, List.countP_append]
    simp [hself.1]

/-! ### Connectivity -/

open Spec (Conn)

theorem conn_mono {α : Type} {E E' : List (α × α)} (h : ∀ e ∈ E, e ∈ E') {x y : α} (hc : Conn E x y) : Conn E' x y := by
  unfold Conn at *
  induction hc with
  | rel x y h1 => exact .rel _ _ (h _ h1)
  | refl x => exact .refl _
  | symm x y _ ih => exact .symm _ _ ih
  | trans x y z _ _ ih1 ih2 => exact .trans _ _ _ ih1 ih2

theorem conn_symm {α : Type} {E : List (α × α)} {x y : α} (h : Conn E x y) : Conn E y x := .symm _ _ h
theorem conn_trans {α : Type} {E : List (α × α)} {x y z : α} (h : Conn E x y) (h' : Conn E y z) : Conn E x z :=
  .trans _ _ _ h h'

/-- A labelling `l` whose kernel is connectivity. -/
def Kernel {α β : Type} (l : α → β) (E : List (α × α)) : Prop := ∀ x y, l x = l y ↔ Conn E x y

theorem Kernel.same_edge {α β : Type} {l : α → β} {E : List (α × α)} (h : Kernel l E) {a b : α} (hab : l a = l b) :
    Kernel l ((a, b) :: E) := by
  intro x y
  constructor
  · intro e; exact conn_mono (by simp +contextual) ((h x y).1 e)
  · intro hc
    unfold Conn at hc
    induction hc with
    | rel x y h1 =>
      rcases List.mem_cons.1 h1 with h2 | h2
      · injection h2 with h3 h4; rw [h3, h4, hab]
      · exact (h x y).2 (.rel _ _ h2)
    | refl x => rfl
    | symm x y _ ih => exact ih.symm
    | trans x y z _ _ ih1 ih2 => exact ih1.trans ih2

theorem Kernel.merge {α β : Type} [DecidableEq β] {l : α → β} {E : List (α × α)} (h : Kernel l E) {a b : α} (s m : β)
    (hsm : (s = l a ∧ m = l b) ∨ (s = l b ∧ m = l a)) :
    Kernel (fun x => if l x = s then m else l x) ((a, b) :: E) := by
  have hE : ∀ {x y}, Conn E x y → Conn ((a, b) :: E) x y := fun hc => conn_mono (by simp +contextual) hc
  have hab : Conn ((a, b) :: E) a b := .rel _ _ (by simp)
  -- connection of any element labelled s with any element labelled m
  have key : ∀ x y, l x = s → l y = m → Conn ((a, b) :: E) x y := by
    intro x y hx hy
    rcases hsm with ⟨h1, h2⟩ | ⟨h1, h2⟩
    · exact conn_trans (hE ((h x a).1 (by rw [hx, h1]))) (conn_trans hab (hE ((h b y).1 (by rw [hy, h2]))))
    · exact conn_trans (hE ((h x b).1 (by rw [hx, h1])))
        (conn_trans (conn_symm hab) (hE ((h a y).1 (by rw [hy, h2]))))
  intro x y
  constructor
  · intro e
    simp only at e
    by_cases hx : l x = s <;> by_cases hy : l y = s
    · exact hE ((h x y).1 (by rw [hx, hy]))
    · rw [if_pos hx, if_neg hy] at e; exact key x y hx e.symm
    · rw [if_neg hx, if_pos hy] at e; exact conn_symm (key y x hy e)
    · rw [if_neg hx, if_neg hy] at e; exact hE ((h x y).1 e)
  · intro hc
    unfold Conn at hc
    induction hc with
    | rel x y h1 =>
      rcases List.mem_cons.1 h1 with h2 | h2
      · injection h2 with h3 h4
        subst h3; subst h4
        simp only
        rcases hsm with ⟨h5, h6⟩ | ⟨h5, h6⟩
        · rw [if_pos h5.symm]; split
          · rfl
          · exact h6
        · rw [if_pos h5.symm]; split
          · rfl
          · exact h6.symm
      · have := (h x y).2 (.rel _ _ h2)
        simp only [this]
    | refl x => rfl
    | symm x y _ ih => exact ih.symm
    | trans x y z _ _ ih1 ih2 => exact ih1.trans ih2

theorem mergeR_eq (r : Nat → Nat) (s m : Nat) : mergeR r s m = fun x => if r x = s then m else r x := rfl

/-- `_join(_find(a), _find(b))`: result and effect. -/
theorem CInv.joinElems {c n r ρ} (h : CInv c n r ρ) (o1 o2 : Bool) (k : Counters) (a b : Nat) (ha : a < n)
    (hb : b < n) (hkd : k.disjoint = nroots n r) (hka : k.acorn < W) :
    ∃ c' k' r' ρ', joinElems o1 o2 c k a b = .ok (c', k', decide (r a ≠ r b)) ∧ CInv c' n r' ρ' ∧
      k'.disjoint = nroots n r' ∧ k'.acorn = k.acorn ∧ c'.compress = c.compress ∧
      ((r a = r b ∧ r' = r) ∨
        (r a ≠ r b ∧ ∃ s m, ((s = r a ∧ m = r b) ∨ (s = r b ∧ m = r a)) ∧ r' = mergeR r s m)) := by
  obtain ⟨c1, e1, i1, q1⟩ := h.find2 o1 a b ha hb
  obtain ⟨hra1, hra2, _⟩ := h.root a ha
  obtain ⟨hrb1, hrb2, _⟩ := h.root b hb
  obtain ⟨c2, k2, e2, q2, ac, hs, hd⟩ := i1.joinRoots o2 k (r a) (r b) hra1 hrb1 hra2 hrb2 hkd hka
  unfold UnionFind.joinElems
  rw [e1]
  simp only [Res.bind_ok]
  rw [e2]
  by_cases hab : r a = r b
  · obtain ⟨i2, ek⟩ := hs hab
    subst ek
    exact ⟨c2, k2, r, ρ, rfl, i2, hkd, rfl, by rw [q2, q1], .inl ⟨hab, rfl⟩⟩
  · obtain ⟨s, m, ρ', hsm, i2, ed⟩ := hd hab
    exact ⟨c2, k2, _, ρ', rfl, i2, ed, ac, by rw [q2, q1], .inr ⟨hab, s, m, hsm, rfl⟩⟩

end Verif.UnionFind
