import Verif.UnionFind.Exact

/-!
C186: with path compression, the calls of `union_set_t` and `union_find_t` take almost constant time, on the average over any
history.  The time of a call is the number of activations of `_find` (union_set.h:147-183, union_find.h:221-257); apart from these
every call does a constant amount of work.

The proof is the one of Hopcroft and Ullman: the potential `ρ` of the invariant `CInv` is a rank, there are at most `n / 2 ^ t`
elements of rank `t` or more, and the ranks are grouped into intervals whose ends are powers of two of their beginnings.
-/

namespace Verif.UnionFind
open Spec

attribute [local irreducible] W

/-! ### Specification -/

/-- The iterated logarithm: how often the logarithm can be taken until 1 or less is left. -/
def Spec.logStar (n : Nat) : Nat :=
  if h : n ≤ 1 then 0 else logStar (Nat.log2 n) + 1
termination_by n
decreasing_by exact (Nat.log2_lt (by omega)).2 Nat.lt_two_pow_self

/-! ### The number of activations of `_find` -/

/-- The activations of `_find` that `findFuel f c x` makes: the recursive call is the first thing that happens (union_set.h:160, 178). -/
def findCalls : Nat → Core → Nat → Nat
  | 0, _, _ => 0
  | f + 1, c, x =>
    match c.parent[x]? with
    | none => 1
    | some p => if x = p then 1 else findCalls f c p + 1

def costFind (c : Core) (x : Nat) : Nat := findCalls (c.parent.length + 1) c x

def afterFind (c : Core) (x : Nat) : Core :=
  match find c x with
  | .ok (c, _) => c
  | _ => c

/-- Of `find2`. -/
def cost2 (leftFirst : Bool) (c : Core) (a b : Nat) : Nat :=
  if leftFirst then costFind c a + costFind (afterFind c a) b else costFind c b + costFind (afterFind c b) a

/-- Of `sameSet`. -/
def costSame (o : Bool) (c : Core) (a b : Nat) : Nat := if a = b then 0 else cost2 o c a b

/-- Of `joinElems`. -/
def costJoin (o1 o2 : Bool) (c : Core) (a b : Nat) : Nat :=
  cost2 o1 c a b +
    match find2 o1 c a b with
    | .ok (c, ra, rb) => costSame o2 c ra rb
    | _ => 0

/-! ### Towers of two -/

def tw : Nat → Nat
  | 0 => 0
  | i + 1 => 2 ^ tw i

theorem tw_lt (i : Nat) : tw i < tw (i + 1) := Nat.lt_two_pow_self

theorem tw_mono {i j : Nat} (h : i ≤ j) : tw i ≤ tw j := by
  induction h with
  | refl => exact Nat.le_refl _
  | step _ ih => exact Nat.le_trans ih (Nat.le_of_lt (tw_lt _))

/-- The interval of a rank. -/
def bucket (k : Nat) : Nat := if k = 0 then 0 else logStar k + 1

theorem logStar_tw (n : Nat) : 1 ≤ n → tw (logStar n + 1) ≤ n ∧ n < tw (logStar n + 2) := by
  induction n using Nat.strongRecOn with
  | ind n ih =>
    intro hn
    rw [logStar]
    by_cases h : n ≤ 1
    · have : n = 1 := by omega
      subst this
      simp [tw]
    · rw [dif_neg h]
      have hlt : Nat.log2 n < n := (Nat.log2_lt (by omega)).2 Nat.lt_two_pow_self
      have hpos : 1 ≤ Nat.log2 n := (Nat.le_log2 (by omega)).2 (by omega)
      obtain ⟨h1, h2⟩ := ih _ hlt hpos
      refine ⟨?_, ?_⟩
      · show 2 ^ tw (logStar (Nat.log2 n) + 1) ≤ n
        exact (Nat.le_log2 (by omega)).1 h1
      · show n < 2 ^ tw (logStar (Nat.log2 n) + 2)
        exact (Nat.log2_lt (by omega)).1 h2

theorem bucket_tw (k : Nat) : tw (bucket k) ≤ k ∧ k < tw (bucket k + 1) := by
  unfold bucket
  by_cases h : k = 0
  · subst h; simp [tw]
  · rw [if_neg h]
    exact logStar_tw k (by omega)

theorem bucket_le {k i : Nat} (h : k < tw (i + 1)) : bucket k ≤ i := by
  rcases Nat.lt_or_ge i (bucket k) with c | c
  · have := tw_mono (show i + 1 ≤ bucket k from c)
    have := (bucket_tw k).1
    omega
  · exact c

theorem bucket_mono {k l : Nat} (h : k ≤ l) : bucket k ≤ bucket l :=
  bucket_le (Nat.lt_of_le_of_lt h (bucket_tw l).2)

/-- A rank `k` of a set of at least `2 ^ k` elements. -/
theorem bucket_rank {k n : Nat} (h : 2 ^ k ≤ n) : bucket k ≤ logStar n := by
  have h1 : tw (bucket k + 1) ≤ n :=
    Nat.le_trans (Nat.pow_le_pow_right (by omega) (bucket_tw k).1) h
  have hn : 1 ≤ n := Nat.le_trans (Nat.two_pow_pos k) h
  have h2 := (logStar_tw n hn).2
  rcases Nat.lt_or_ge (logStar n) (bucket k) with c | c
  · have := tw_mono (show logStar n + 2 ≤ bucket k + 1 by omega)
    omega
  · exact c

theorem logStar_mono {m n : Nat} (h : m ≤ n) : logStar m ≤ logStar n := by
  by_cases h0 : m = 0
  · subst h0; rw [logStar]; simp
  · have := bucket_mono h
    unfold bucket at this
    rw [if_neg h0, if_neg (by omega)] at this
    omega

/-! ### Sums -/

def sumTo (f : Nat → Nat) : Nat → Nat
  | 0 => 0
  | n + 1 => sumTo f n + f n

theorem sumTo_le {f g : Nat → Nat} : ∀ n, (∀ x, x < n → f x ≤ g x) → sumTo f n ≤ sumTo g n
  | 0, _ => Nat.le_refl _
  | n + 1, h => Nat.add_le_add (sumTo_le n fun x hx => h x (by omega)) (h n (by omega))

theorem sumTo_congr {f g : Nat → Nat} (n : Nat) (h : ∀ x, x < n → f x = g x) : sumTo f n = sumTo g n :=
  Nat.le_antisymm (sumTo_le n fun x hx => Nat.le_of_eq (h x hx)) (sumTo_le n fun x hx => Nat.le_of_eq (h x hx).symm)

theorem sumTo_add (f g : Nat → Nat) : ∀ n, sumTo (fun x => f x + g x) n = sumTo f n + sumTo g n
  | 0 => rfl
  | n + 1 => by simp only [sumTo, sumTo_add f g n]; omega

theorem sumTo_mul (f : Nat → Nat) (k : Nat) : ∀ n, sumTo (fun x => f x * k) n = sumTo f n * k
  | 0 => by simp [sumTo]
  | n + 1 => by simp only [sumTo, sumTo_mul f k n, Nat.add_mul]

theorem sumTo_const (k : Nat) : ∀ n, sumTo (fun _ => k) n = n * k
  | 0 => by simp [sumTo]
  | n + 1 => by simp only [sumTo, sumTo_const k n, Nat.add_mul, Nat.one_mul]

theorem sumTo_comm (f : Nat → Nat → Nat) (m : Nat) : ∀ n, sumTo (fun x => sumTo (f x) m) n = sumTo (fun i => sumTo (fun x => f x i) n) m
  | 0 => by simp only [sumTo]; rw [sumTo_const]; simp
  | n + 1 => by simp only [sumTo, sumTo_comm f m n]; rw [← sumTo_add]

/-- Two sums that differ in one place. -/
theorem sumTo_update {f g : Nat → Nat} {x : Nat} : ∀ n, x < n → (∀ y, y ≠ x → f y = g y) →
    sumTo f n + g x = sumTo g n + f x
  | 0, h, _ => by omega
  | n + 1, h, he => by
    simp only [sumTo]
    by_cases e : x = n
    · subst e
      have : sumTo f x = sumTo g x := sumTo_congr x fun y hy => he y (by omega)
      omega
    · have := sumTo_update n (by omega) he
      have := he n (fun h => e h.symm)
      omega

theorem sumTo_term (f : Nat → Nat) {x : Nat} : ∀ n, x < n → f x ≤ sumTo f n
  | 0, h => by omega
  | n + 1, h => by
    simp only [sumTo]
    by_cases e : x = n
    · subst e; omega
    · have := sumTo_term f n (x := x) (by omega)
      omega

theorem csize_sum (n : Nat) (r : Nat → Nat) (a : Nat) : csize n r a = sumTo (fun y => if r y = a then 1 else 0) n := by
  induction n with
  | zero => rfl
  | succ n ih =>
    unfold csize at ih ⊢
    rw [List.range_succ, List.countP_append, ih]
    simp only [sumTo, List.countP_cons, List.countP_nil, Nat.zero_add, decide_eq_true_eq]

/-! ### The potential -/

def par (c : Core) (x : Nat) : Nat := c.parent[x]?.getD x

/-- What the element `x` below `p` is still to be charged. -/
def term (ρ : Nat → Nat) (x p : Nat) : Nat :=
  if p ≠ x ∧ bucket (ρ x) = bucket (ρ p) then tw (bucket (ρ x) + 1) - ρ p else 0

def phi (c : Core) (n : Nat) (ρ : Nat → Nat) : Nat := sumTo (fun x => term ρ x (par c x)) n

/-- What the elements with parent were given when they got it. -/
def given (c : Core) (n : Nat) (ρ : Nat → Nat) : Nat :=
  sumTo (fun x => if par c x ≠ x then tw (bucket (ρ x) + 1) else 0) n

/-- The ranks are scarce. -/
def Scarce (n : Nat) (r ρ : Nat → Nat) : Prop :=
  ∀ t, sumTo (fun x => if t ≤ ρ x then 1 else 0) n * 2 ^ t ≤ sumTo (fun x => if t ≤ ρ (r x) then 1 else 0) n

theorem given_le {c n r ρ} (h : CInv c n r ρ) (hs : Scarce n r ρ) : given c n ρ ≤ n * (logStar n + 1) := by
  have hb : ∀ x, x < n → bucket (ρ x) < logStar n + 1 := by
    intro x hx
    have h1 := h.rho_bound x hx
    have h2 := csize_le n r (r x)
    have h3 : ρ x ≤ ρ (r x) := by
      by_cases e : x = r x
      · exact Nat.le_of_eq (congrArg ρ e)
      · exact Nat.le_of_lt (h.mono x hx e)
    have h4 := bucket_mono h3
    have h5 := bucket_rank (Nat.le_trans h1 h2)
    omega
  have h1 : given c n ρ ≤ sumTo (fun x => sumTo (fun i => (if tw i ≤ ρ x then 1 else 0) * 2 ^ tw i) (logStar n + 1)) n := by
    refine sumTo_le n fun x hx => ?_
    have := sumTo_term (fun i => (if tw i ≤ ρ x then 1 else 0) * 2 ^ tw i) (logStar n + 1) (hb x hx)
    simp only [if_pos (bucket_tw (ρ x)).1, Nat.one_mul] at this
    split
    · exact this
    · exact Nat.zero_le _
  refine Nat.le_trans h1 ?_
  rw [sumTo_comm, Nat.mul_comm, ← sumTo_const]
  refine sumTo_le _ fun i _ => ?_
  rw [sumTo_mul]
  refine Nat.le_trans (hs (tw i)) ?_
  have : sumTo (fun x => if tw i ≤ ρ (r x) then 1 else 0) n ≤ sumTo (fun _ => 1) n :=
    sumTo_le n fun x _ => by split <;> omega
  rw [sumTo_const] at this
  omega

theorem onPath_rho {c n r ρ} (h : CInv c n r ρ) {a b : Nat} (ho : OnPath c.parent a b) : a < n → ρ a ≤ ρ b := by
  induction ho with
  | here => intro _; exact Nat.le_refl _
  | @up x p y hp _ ih =>
    intro hx
    obtain ⟨q, h1, h2, _, _, h3⟩ := h.par x hx
    rw [hp] at h1
    have h1 := Option.some.inj h1
    subst h1
    have := ih h2
    by_cases e : p = x
    · subst e; exact this
    · have := h3 e
      omega

/-- A call of `_find`: what it costs is taken from the potential, but for one activation for each interval of ranks. -/
theorem find_amort {n r ρ} (f : Nat) : ∀ (c c' : Core) (x : Nat), CInv c n r ρ → c.compress = true → x < n →
    findFuel f c x = .ok (c', r x) →
    given c' n ρ = given c n ρ ∧
    (if x = r x then findCalls f c x = 1 ∧ phi c' n ρ = phi c n ρ
     else findCalls f c x + phi c' n ρ + bucket (ρ x) ≤ phi c n ρ + 2 + bucket (ρ (r x))) := by
  induction f with
  | zero => intro c c' x _ _ _ h; cases h
  | succ f ih =>
    intro c c' x h hc hx hfind
    obtain ⟨p, hp, ⟨hxp, hcc, hr⟩ | ⟨_, hcf, _⟩ | ⟨hxp, _, c1, hf, hc1⟩⟩ := findFuel_step hfind
    · subst hcc
      rw [if_pos hr.symm]
      refine ⟨rfl, ?_, rfl⟩
      simp only [findCalls, hp, if_pos hxp]
    · rw [hc] at hcf; cases hcf
    · obtain ⟨q, h1, h2, h3, h4, h5⟩ := h.par x hx
      rw [hp] at h1
      have h1 := Option.some.inj h1
      subst h1
      have hrho := h5 (Ne.symm hxp)
      have hroot := h.root x hx
      have hxr : x ≠ r x := by
        intro e
        have := hroot.2.2
        rw [← e, hp] at this
        exact hxp (Option.some.inj this).symm
      have hmono : ρ p ≤ ρ (r x) := by
        rw [← h3]
        by_cases e : p = r p
        · exact Nat.le_of_eq (congrArg ρ e)
        · exact Nat.le_of_lt (h.mono p h2 e)
      have hcalls : findCalls (f + 1) c x = findCalls f c p + 1 := by
        simp only [findCalls, hp, if_neg hxp]
      rw [← h3] at hf
      obtain ⟨i1, i2⟩ := ih c c1 p h hc h2 hf
      rw [if_neg hxr, hcalls]
      by_cases hrp : r x = p
      · have hc1 : c'.parent = c1.parent := by rw [hc1, if_neg (fun e => e hrp)]
        have e1 : given c' n ρ = given c1 n ρ := by unfold given par; rw [hc1]
        have e2 : phi c' n ρ = phi c1 n ρ := by unfold phi par; rw [hc1]
        rw [if_pos (by rw [h3, hrp])] at i2
        refine ⟨by rw [e1, i1], ?_⟩
        rw [e2, i2.1, i2.2, hrp]
        have := bucket_mono (Nat.le_of_lt hrho)
        omega
      · have hc1 : c'.parent = c1.parent.set x (r x) := by rw [hc1, if_pos hrp]
        have hlen : c1.parent.length = n := by rw [findFuel_lenP _ _ _ _ _ hf, h.lenP]
        have hpx : par c1 x = p := by
          have : ¬ OnPath c.parent p x := fun ho => by
            have := onPath_rho h ho h2
            omega
          unfold par
          rw [(findFuel_flat _ _ _ _ _ hf hc x).2 this, hp]
          rfl
        have hpx' : par c' x = r x := by
          unfold par
          rw [hc1, List.getElem?_set_self (by omega)]
          rfl
        have hpy : ∀ y, y ≠ x → par c' y = par c1 y := by
          intro y hy
          unfold par
          rw [hc1, List.getElem?_set_ne (Ne.symm hy)]
        have u1 := sumTo_update (f := fun y => if par c' y ≠ y then tw (bucket (ρ y) + 1) else 0)
          (g := fun y => if par c1 y ≠ y then tw (bucket (ρ y) + 1) else 0) n hx (fun y hy => by simp only [hpy y hy])
        have u2 := sumTo_update (f := fun y => term ρ y (par c' y)) (g := fun y => term ρ y (par c1 y)) n hx
          (fun y hy => by simp only [hpy y hy])
        simp only [hpx, hpx', if_pos (Ne.symm hxp), if_pos (Ne.symm hxr)] at u1
        simp only [hpx, hpx'] at u2
        refine ⟨?_, ?_⟩
        · rw [← i1]
          unfold given
          omega
        · rw [if_neg (by rw [h3]; exact fun e => hrp e.symm), h3] at i2
          have hbx := bucket_mono (Nat.le_of_lt hrho)
          have hbp := bucket_mono hmono
          have hlt : ρ p < ρ (r x) := by
            have := h.mono p h2 (by rw [h3]; exact fun e => hrp e.symm)
            rwa [h3] at this
          change phi c' n ρ + _ = phi c1 n ρ + _ at u2
          by_cases hb : bucket (ρ x) = bucket (ρ p)
          · have t1 : term ρ x p = tw (bucket (ρ x) + 1) - ρ p := if_pos ⟨Ne.symm hxp, hb⟩
            have t2 : term ρ x (r x) + 1 ≤ term ρ x p := by
              rw [t1]
              have h6 := (bucket_tw (ρ p)).2
              rw [← hb] at h6
              unfold term
              split
              · next h7 =>
                have h8 := (bucket_tw (ρ (r x))).2
                rw [← h7.2] at h8
                omega
              · omega
            omega
          · have t1 : term ρ x (r x) = 0 := if_neg (fun e => by omega)
            omega

/-! ### The shared functions -/

structure AInv (c : Core) (n : Nat) (r ρ : Nat → Nat) : Prop where
  inv : CInv c n r ρ
  comp : c.compress = true
  scarce : Scarce n r ρ

theorem AInv.bucket_le {c n r ρ} (h : AInv c n r ρ) (x : Nat) (hx : x < n) : bucket (ρ (r x)) ≤ logStar n :=
  bucket_rank (Nat.le_trans (h.inv.rho_bound x hx) (csize_le n r (r x)))

theorem AInv.find {c n r ρ} (h : AInv c n r ρ) (x : Nat) (hx : x < n) :
    find c x = .ok (afterFind c x, r x) ∧ AInv (afterFind c x) n r ρ ∧ given (afterFind c x) n ρ = given c n ρ ∧
      costFind c x + phi (afterFind c x) n ρ ≤ phi c n ρ + (logStar n + 2) ∧
      (r x = x → costFind c x = 1 ∧ phi (afterFind c x) n ρ = phi c n ρ) := by
  obtain ⟨c', e, i, q⟩ := h.inv.find x hx
  have ha : afterFind c x = c' := by unfold afterFind; rw [e]
  rw [ha]
  obtain ⟨h1, h2⟩ := find_amort _ c c' x h.inv h.comp hx e
  refine ⟨e, ⟨i, by rw [q]; exact h.comp, h.scarce⟩, h1, ?_, fun hr => ?_⟩
  · unfold costFind
    by_cases hr : x = r x
    · rw [if_pos hr] at h2
      omega
    · rw [if_neg hr] at h2
      have := h.bucket_le x hx
      omega
  · rw [if_pos hr.symm] at h2
    exact h2

theorem AInv.find2 {c n r ρ} (h : AInv c n r ρ) (o : Bool) (a b : Nat) (ha : a < n) (hb : b < n) :
    ∃ c', find2 o c a b = .ok (c', r a, r b) ∧ AInv c' n r ρ ∧ given c' n ρ = given c n ρ ∧
      cost2 o c a b + phi c' n ρ ≤ phi c n ρ + 2 * (logStar n + 2) ∧
      (r a = a → r b = b → cost2 o c a b = 2 ∧ phi c' n ρ = phi c n ρ) := by
  unfold UnionFind.find2 cost2
  cases o
  · obtain ⟨e1, i1, g1, k1, l1⟩ := h.find b hb
    obtain ⟨e2, i2, g2, k2, l2⟩ := i1.find a ha
    refine ⟨_, by simp [e1, e2], i2, by rw [g2, g1], ?_, fun h1 h2 => ?_⟩
    · simp only [Bool.false_eq_true, if_false]; omega
    · have := l1 h2
      have := l2 h1
      simp only [Bool.false_eq_true, if_false]; omega
  · obtain ⟨e1, i1, g1, k1, l1⟩ := h.find a ha
    obtain ⟨e2, i2, g2, k2, l2⟩ := i1.find b hb
    refine ⟨_, by simp [e1, e2], i2, by rw [g2, g1], ?_, fun h1 h2 => ?_⟩
    · simp only [if_true]; omega
    · have := l1 h1
      have := l2 h2
      simp only [if_true]; omega

theorem AInv.sameSet {c n r ρ} (h : AInv c n r ρ) (o : Bool) (a b : Nat) (ha : a < n) (hb : b < n) :
    ∃ c', sameSet o c a b = .ok (c', decide (r a = r b)) ∧ AInv c' n r ρ ∧ given c' n ρ = given c n ρ ∧
      costSame o c a b + phi c' n ρ ≤ phi c n ρ + 2 * (logStar n + 2) ∧
      (r a = a → r b = b → costSame o c a b ≤ 2 ∧ phi c' n ρ = phi c n ρ) := by
  unfold UnionFind.sameSet costSame
  by_cases hab : a = b
  · subst hab
    refine ⟨c, by simp, h, rfl, ?_, fun _ _ => ?_⟩
    · simp only [if_true]; omega
    · exact ⟨by simp, rfl⟩
  · obtain ⟨c', e, i, g, k, l⟩ := h.find2 o a b ha hb
    refine ⟨c', by simp [hab, e], i, g, ?_, fun h1 h2 => ?_⟩
    · rw [if_neg hab]; exact k
    · rw [if_neg hab]
      have := l h1 h2
      omega

theorem joinSet_parent {c c' : Core} {s m : Nat} (h : joinSet c s m = .ok c') : c'.parent = c.parent.set s m := by
  unfold joinSet at h
  obtain ⟨_, _, h⟩ := Res.bind_eq_ok.1 h
  obtain ⟨_, _, h⟩ := Res.bind_eq_ok.1 h
  obtain ⟨_, _, h⟩ := Res.bind_eq_ok.1 h
  injection h with h
  rw [← h]

theorem scarce_merge {c n r ρ} (h : CInv c n r ρ) (hs : Scarce n r ρ) (s m : Nat) (hsn : s < n) (hmn : m < n) (hrs : r s = s)
    (hrm : r m = m) (hsm : s ≠ m) (hle : csize n r s ≤ csize n r m) : Scarce n (mergeR r s m) (mergeRho ρ s m) := by
  intro t
  have hbs := (h.size s hsn hrs).2
  have hRne : ∀ x, x ≠ m → mergeRho ρ s m x = ρ x := by
    intro x hx; unfold mergeRho; rw [if_neg hx]
  have hRM : mergeRho ρ s m m = max (ρ m) (ρ s + 1) := by unfold mergeRho; rw [if_pos rfl]
  have hx : ∀ x, mergeRho ρ s m (mergeR r s m x) = if r x = s ∨ r x = m then max (ρ m) (ρ s + 1) else ρ (r x) := by
    intro x
    unfold mergeR
    by_cases e1 : r x = s
    · rw [if_pos e1, hRM, if_pos (.inl e1)]
    · rw [if_neg e1]
      by_cases e2 : r x = m
      · rw [if_pos (.inr e2), e2, hRM]
      · rw [hRne _ e2, if_neg (by simp [e1, e2])]
  have hold := hs t
  by_cases hnew : ρ m < t ∧ t ≤ ρ s + 1
  · -- the master reaches the rank `t`
    have l1 := sumTo_update (f := fun x => if t ≤ mergeRho ρ s m x then 1 else 0) (g := fun x => if t ≤ ρ x then 1 else 0) n hmn
      (fun y hy => by simp only [hRne y hy])
    simp only [hRM, if_neg (show ¬ t ≤ ρ m by omega), if_pos (show t ≤ max (ρ m) (ρ s + 1) by omega)] at l1
    have hsz : 2 ^ t ≤ csize n r m + if ρ s < t then csize n r s else 0 := by
      by_cases e : ρ s < t
      · rw [if_pos e]
        have : t = ρ s + 1 := by omega
        rw [this, Nat.pow_succ]
        omega
      · have := Nat.pow_le_pow_right (show 0 < 2 by omega) (show t ≤ ρ s by omega)
        omega
    have l2 : sumTo (fun x => if t ≤ ρ (r x) then 1 else 0) n + (csize n r m + if ρ s < t then csize n r s else 0) ≤
        sumTo (fun x => if t ≤ mergeRho ρ s m (mergeR r s m x) then 1 else 0) n := by
      have : (if ρ s < t then csize n r s else 0) = sumTo (fun x => if ρ s < t then (if r x = s then 1 else 0) else 0) n := by
        by_cases e : ρ s < t
        · simp only [if_pos e]; exact csize_sum _ _ _
        · simp only [if_neg e]; rw [sumTo_const]; simp
      rw [this, csize_sum, ← sumTo_add, ← sumTo_add]
      refine sumTo_le n fun x _ => ?_
      rw [hx]
      by_cases e1 : r x = s
      · rw [e1]
        simp only [hsm, if_false, true_or, if_true]
        rw [if_pos (show t ≤ max (ρ m) (ρ s + 1) by omega)]
        by_cases e : ρ s < t
        · rw [if_pos e, if_neg (by omega)]; omega
        · rw [if_neg e, if_pos (by omega)]; omega
      · by_cases e2 : r x = m
        · rw [e2]
          simp only [or_true, if_true]
          have hms : ¬ m = s := fun e => hsm e.symm
          simp only [hms, if_false]
          rw [if_pos (show t ≤ max (ρ m) (ρ s + 1) by omega), if_neg (show ¬ t ≤ ρ m by omega)]
          split <;> omega
        · simp only [e1, e2, if_false, or_self]
          split <;> split <;> omega
    have : sumTo (fun x => if t ≤ mergeRho ρ s m x then 1 else 0) n = sumTo (fun x => if t ≤ ρ x then 1 else 0) n + 1 := by omega
    rw [this, Nat.add_mul]
    omega
  · have l1 : sumTo (fun x => if t ≤ mergeRho ρ s m x then 1 else 0) n = sumTo (fun x => if t ≤ ρ x then 1 else 0) n := by
      refine sumTo_congr n fun x _ => ?_
      by_cases e : x = m
      · subst e
        rw [hRM]
        by_cases c : t ≤ ρ x
        · rw [if_pos c, if_pos (by omega)]
        · rw [if_neg c, if_neg (by omega)]
      · rw [hRne x e]
    rw [l1]
    refine Nat.le_trans hold (sumTo_le n fun x _ => ?_)
    rw [hx]
    by_cases c : t ≤ ρ (r x)
    · have : t ≤ if r x = s ∨ r x = m then max (ρ m) (ρ s + 1) else ρ (r x) := by
        split
        · next e =>
          rcases e with e | e <;> rw [e] at c <;> omega
        · exact c
      rw [if_pos c, if_pos this]
      omega
    · rw [if_neg c]; omega

theorem AInv.joinSet {c n r ρ} (h : AInv c n r ρ) (s m : Nat) (hs : s < n) (hm : m < n) (hrs : r s = s)
    (hrm : r m = m) (hsm : s ≠ m) (hle : csize n r s ≤ csize n r m) :
    ∃ c', joinSet c s m = .ok c' ∧ AInv c' n (mergeR r s m) (mergeRho ρ s m) ∧
      phi c' n (mergeRho ρ s m) + given c n ρ ≤ phi c n ρ + given c' n (mergeRho ρ s m) := by
  obtain ⟨c', e, i, q⟩ := h.inv.joinSet s m hs hm hrs hrm hsm hle
  refine ⟨c', e, ⟨i, by rw [q]; exact h.comp, scarce_merge h.inv h.scarce s m hs hm hrs hrm hsm hle⟩, ?_⟩
  have hpar := joinSet_parent e
  have hlen := h.inv.lenP
  have hRne : ∀ x, x ≠ m → mergeRho ρ s m x = ρ x := by
    intro x hx; unfold mergeRho; rw [if_neg hx]
  have hRM : mergeRho ρ s m m = max (ρ m) (ρ s + 1) := by unfold mergeRho; rw [if_pos rfl]
  have hps : par c s = s := by
    have := (h.inv.root s hs).2.2
    unfold par
    rw [hrs] at this
    rw [this]; rfl
  have hpm : par c m = m := by
    have := (h.inv.root m hm).2.2
    unfold par
    rw [hrm] at this
    rw [this]; rfl
  have hps' : par c' s = m := by
    unfold par
    rw [hpar, List.getElem?_set_self (by omega)]
    rfl
  have hpy : ∀ y, y ≠ s → par c' y = par c y := by
    intro y hy
    unfold par
    rw [hpar, List.getElem?_set_ne (Ne.symm hy)]
  unfold phi given
  rw [← sumTo_add, ← sumTo_add]
  refine sumTo_le n fun x _ => ?_
  by_cases e1 : x = s
  · subst e1
    rw [hps, hps', hRne x hsm, if_neg (fun e => e rfl), if_pos (Ne.symm hsm)]
    have : term (mergeRho ρ x m) x m ≤ tw (bucket (ρ x) + 1) := by
      unfold term
      split
      · rw [hRne x hsm]; omega
      · omega
    omega
  · rw [hpy x e1]
    by_cases e2 : x = m
    · subst e2
      rw [hpm]
      unfold term
      simp
    · rw [hRne x e2]
      have : term (mergeRho ρ s m) x (par c x) ≤ term ρ x (par c x) := by
        by_cases e3 : par c x = m
        · rw [e3]
          unfold term
          rw [hRne x e2, hRM]
          by_cases c1 : m ≠ x ∧ bucket (ρ x) = bucket (max (ρ m) (ρ s + 1))
          · rw [if_pos c1]
            obtain ⟨q, k1, k2, k3, k4, k5⟩ := h.inv.par x (by assumption)
            have : q = m := by
              unfold par at e3
              rw [k1] at e3
              exact e3
            subst this
            have hb1 := bucket_mono (Nat.le_of_lt (k5 c1.1))
            have hb2 := bucket_mono (show ρ q ≤ max (ρ q) (ρ s + 1) by omega)
            rw [if_pos ⟨c1.1, by omega⟩]
            omega
          · rw [if_neg c1]; omega
        · unfold term
          rw [hRne x e2, hRne _ e3]
          omega
      omega

/-- `_join(_find(a), _find(b))`. -/
theorem AInv.joinElems {c n r ρ} (h : AInv c n r ρ) (o1 o2 : Bool) (k : Counters) (a b : Nat) (ha : a < n) (hb : b < n) :
    ∃ c' k' res r' ρ', joinElems o1 o2 c k a b = .ok (c', k', res) ∧ AInv c' n r' ρ' ∧
      costJoin o1 o2 c a b + phi c' n ρ' + given c n ρ ≤ phi c n ρ + given c' n ρ' + (2 * (logStar n + 2) + 2) := by
  obtain ⟨c1, e1, i1, g1, k1, _⟩ := h.find2 o1 a b ha hb
  obtain ⟨hra1, hra2, _⟩ := h.inv.root a ha
  obtain ⟨hrb1, hrb2, _⟩ := h.inv.root b hb
  obtain ⟨c2, e2, i2, g2, _, l2⟩ := i1.sameSet o2 (r a) (r b) hra1 hrb1
  obtain ⟨l2, l3⟩ := l2 hra2 hrb2
  unfold UnionFind.joinElems costJoin
  rw [e1]
  simp only [Res.bind_ok]
  unfold UnionFind.joinRoots
  rw [i1.inv.rd_root (r a) hra1 hra2, i1.inv.rd_root (r b) hrb1 hrb2]
  simp only [Res.bind_ok, e2, hra2, hrb2]
  by_cases hab : r a = r b
  · simp only [hab, decide_true, Bool.not_true, Bool.false_eq_true, if_false]
    refine ⟨c2, k, false, r, ρ, rfl, i2, ?_⟩
    rw [hab] at l2
    rw [g2, g1, l3]
    omega
  · have hd : decide (r a = r b) = false := by simpa using hab
    simp only [hd, Bool.not_false, if_true]
    by_cases hle : csize n r (r a) ≤ csize n r (r b)
    · obtain ⟨c3, e3, i3, g3⟩ := i2.joinSet (r a) (r b) hra1 hrb1 hra2 hrb2 hab hle
      rw [if_pos hle, e3]
      simp only [Res.bind_ok]
      refine ⟨c3, _, true, _, _, rfl, i3, ?_⟩
      omega
    · obtain ⟨c3, e3, i3, g3⟩ := i2.joinSet (r b) (r a) hrb1 hra1 hrb2 hra2 (Ne.symm hab) (by omega)
      rw [if_neg hle, e3]
      simp only [Res.bind_ok]
      refine ⟨c3, _, true, _, _, rfl, i3, ?_⟩
      omega

/-- Adding one element. -/
theorem AInv.push {c n r ρ} (h : AInv c n r ρ) (hW : n + 1 < W) :
    AInv { c with parent := c.parent ++ [n], rank := c.rank ++ [1] } (n + 1) r ρ ∧
      phi { c with parent := c.parent ++ [n], rank := c.rank ++ [1] } (n + 1) ρ = phi c n ρ ∧
      given { c with parent := c.parent ++ [n], rank := c.rank ++ [1] } (n + 1) ρ = given c n ρ := by
  have hlen := h.inv.lenP
  have hout := h.inv.out n (Nat.le_refl n)
  have hp : ∀ x, x < n → par { c with parent := c.parent ++ [n], rank := c.rank ++ [1] } x = par c x := by
    intro x hx
    unfold par
    simp only
    rw [List.getElem?_append_left (by omega)]
  have hpn : par { c with parent := c.parent ++ [n], rank := c.rank ++ [1] } n = n := by
    unfold par
    simp only
    rw [List.getElem?_append_right (by omega), hlen]
    simp
  refine ⟨⟨(h.inv.push hW).1, h.comp, ?_⟩, ?_, ?_⟩
  · intro t
    have := h.scarce t
    simp only [sumTo, hout.1, hout.2]
    by_cases e : t ≤ 0
    · have : t = 0 := by omega
      subst this
      simp only [Nat.zero_le, if_true, Nat.pow_zero, Nat.mul_one]
      omega
    · rw [if_neg e]
      simpa using this
  · unfold phi
    simp only [sumTo, hpn]
    rw [sumTo_congr n fun x hx => by rw [hp x hx]]
    simp [term]
  · unfold given
    simp only [sumTo, hpn]
    rw [sumTo_congr n fun x hx => by rw [hp x hx]]
    simp

/-! ### `union_set_t` -/

inductive Call where
  | find (a : Nat) | same (o : Bool) (a b : Nat) | join (o1 o2 : Bool) (a b : Nat) | sizeOf (a : Nat) | resize (n : Nat)
deriving DecidableEq, Repr

namespace USet

/-- A public call, without its result. -/
def call (s : USet) : Call → Res USet
  | .find a => do let (s, _) ← s.find a; .ok s
  | .same o a b => do let (s, _) ← s.same o a b; .ok s
  | .join o1 o2 a b => do let (s, _) ← s.join o1 o2 a b; .ok s
  | .sizeOf a => do let (s, _) ← s.sizeOf a; .ok s
  | .resize n => .ok (s.resize n).1

/-- The activations of `_find` in a public call. -/
def cost (s : USet) : Call → Nat
  | .find a | .sizeOf a => if s.exists a then costFind s.core a else 0
  | .same o a b => if s.exists a && s.exists b then costSame o s.core a b else 0
  | .join o1 o2 a b => if s.exists a && s.exists b then costJoin o1 o2 s.core a b else 0
  | .resize _ => 0

/-- A history of calls: the object afterwards and all activations of `_find`. -/
def calls (s : USet) : List Call → Res (USet × Nat)
  | [] => .ok (s, 0)
  | op :: ops => do
    let s' ← s.call op
    let (t, k) ← s'.calls ops
    .ok (t, s.cost op + k)

end USet

theorem foldA (r ρ : Nat → Nat) (m : Nat) : ∀ (P R : List Nat) (k : Counters) (n : Nat),
    AInv ⟨P, R, true⟩ n r ρ → n + m < W →
    let s' := (List.range' n m).foldl (fun s ii => (USet.insert s ii).1)
      ⟨⟨P ++ List.replicate m 0, R ++ List.replicate m 0, true⟩, k⟩
    AInv s'.core (n + m) r ρ ∧ phi s'.core (n + m) ρ = phi ⟨P, R, true⟩ n ρ ∧ given s'.core (n + m) ρ = given ⟨P, R, true⟩ n ρ := by
  induction m with
  | zero => intro P R k n h _; simpa using h
  | succ m ih =>
    intro P R k n h hW
    have hP : P.length = n := h.inv.lenP
    have hR : R.length = n := h.inv.lenR
    obtain ⟨i1, i2, i3⟩ := h.push (by omega)
    have hstep : (USet.insert ⟨⟨P ++ List.replicate (m + 1) 0, R ++ List.replicate (m + 1) 0, true⟩, k⟩ n).1
        = ⟨⟨(P ++ [n]) ++ List.replicate m 0, (R ++ [1]) ++ List.replicate m 0, true⟩,
            ⟨(k.disjoint + 1) % W, (k.acorn + 1) % W⟩⟩ := by
      have e1 : (P ++ List.replicate (m + 1) 0).set n n = (P ++ [n]) ++ List.replicate m 0 := by
        rw [← hP, List.set_append_right _ _ (Nat.le_refl _)]; simp [List.replicate_succ]
      have e2 : (R ++ List.replicate (m + 1) 0).set n 1 = (R ++ [1]) ++ List.replicate m 0 := by
        rw [← hR, List.set_append_right _ _ (Nat.le_refl _)]; simp [List.replicate_succ]
      have e3 : (USet.mk ⟨P ++ List.replicate (m + 1) 0, R ++ List.replicate (m + 1) 0, true⟩ k).exists n
          = true := by
        unfold USet.exists; simp; omega
      unfold USet.insert
      simp only [e3, if_true, e1, e2]
    rw [List.range'_succ]
    simp only [List.foldl_cons]
    rw [hstep]
    have := ih (P ++ [n]) (R ++ [1]) ⟨(k.disjoint + 1) % W, (k.acorn + 1) % W⟩ (n + 1) i1 (by omega)
    have e : n + 1 + m = n + (m + 1) := by omega
    rw [e] at this
    exact ⟨this.1, this.2.1.trans i2, this.2.2.trans i3⟩

theorem AInv.resize {s : USet} {n r ρ} (h : AInv s.core n r ρ) (size : Nat) (hW : size < W) :
    AInv (s.resize size).1.core (max n size) r ρ ∧ phi (s.resize size).1.core (max n size) ρ = phi s.core n ρ ∧
      given (s.resize size).1.core (max n size) ρ = given s.core n ρ := by
  unfold USet.resize
  rw [h.inv.lenP]
  simp only
  split
  · next hlt =>
    have e : n + (size - n) = size := by omega
    have hm : max n size = size := by omega
    have hc : s.core = ⟨s.core.parent, s.core.rank, true⟩ := by rw [← h.comp]
    have := foldA r ρ (size - n) s.core.parent s.core.rank s.cnt n (by rw [← hc]; exact h) (by omega)
    rw [e] at this
    rw [hm, h.comp]
    rw [← hc] at this
    exact this
  · next hlt =>
    have hm : max n size = n := by omega
    rw [hm]; exact ⟨h, rfl, rfl⟩

theorem call_amort {s : USet} {n r ρ} (h : AInv s.core n r ρ) (op : Call) (hop : ∀ m, op = .resize m → m < W) :
    ∃ s' n' r' ρ', s.call op = .ok s' ∧ AInv s'.core n' r' ρ' ∧ n ≤ n' ∧
      s.cost op + phi s'.core n' ρ' + given s.core n ρ ≤ phi s.core n ρ + given s'.core n' ρ' + (2 * logStar n + 6) := by
  have hex : ∀ a, s.exists a = decide (a < n) := fun a => by unfold USet.exists; rw [h.inv.lenP]
  cases op with
  | find a =>
    simp only [USet.call, USet.cost, USet.find, hex]
    by_cases ha : a < n
    · obtain ⟨e, i, g, k, _⟩ := h.find a ha
      simp only [ha, decide_true, Bool.not_true, Bool.false_eq_true, if_false, e, Res.bind_ok, if_true]
      exact ⟨_, n, r, ρ, rfl, i, Nat.le_refl _, by simp only; omega⟩
    · simp only [ha, decide_false, Bool.not_false, if_true, Res.bind_ok, Bool.false_eq_true, if_false]
      exact ⟨_, n, r, ρ, rfl, h, Nat.le_refl _, by omega⟩
  | sizeOf a =>
    simp only [USet.call, USet.cost, USet.sizeOf, USet.find, hex]
    by_cases ha : a < n
    · obtain ⟨e, i, g, k, _⟩ := h.find a ha
      obtain ⟨h1, h2, _⟩ := h.inv.root a ha
      have hW := h.inv.nW
      have hne : r a ≠ notFound := by unfold notFound; omega
      simp only [ha, decide_true, Bool.not_true, Bool.false_eq_true, if_false, e, Res.bind_ok, if_true, hne, ne_eq, not_false_eq_true,
        i.inv.rd_root (r a) h1 h2]
      exact ⟨_, n, r, ρ, rfl, i, Nat.le_refl _, by simp only; omega⟩
    · simp only [ha, decide_false, Bool.not_false, if_true, Res.bind_ok, Bool.false_eq_true, if_false, ne_eq, not_true_eq_false]
      exact ⟨_, n, r, ρ, rfl, h, Nat.le_refl _, by omega⟩
  | same o a b =>
    simp only [USet.call, USet.cost, USet.same, hex]
    by_cases hab : a < n ∧ b < n
    · obtain ⟨c', e, i, g, k, _⟩ := h.sameSet o a b hab.1 hab.2
      simp only [hab.1, hab.2, decide_true, Bool.and_true, if_true, e, Res.bind_ok]
      exact ⟨_, n, r, ρ, rfl, i, Nat.le_refl _, by simp only; omega⟩
    · have : (decide (a < n) && decide (b < n)) = false := by
        rw [← Bool.decide_and]; simpa using hab
      simp only [this, Bool.false_eq_true, if_false, Res.bind_ok]
      exact ⟨_, n, r, ρ, rfl, h, Nat.le_refl _, by omega⟩
  | join o1 o2 a b =>
    simp only [USet.call, USet.cost, USet.join, hex]
    by_cases hab : a < n ∧ b < n
    · obtain ⟨c', k', res, r', ρ', e, i, k⟩ := h.joinElems o1 o2 s.cnt a b hab.1 hab.2
      simp only [hab.1, hab.2, decide_true, Bool.and_true, if_true, e, Res.bind_ok]
      exact ⟨_, n, r', ρ', rfl, i, Nat.le_refl _, by simp only; omega⟩
    · have : (decide (a < n) && decide (b < n)) = false := by
        rw [← Bool.decide_and]; simpa using hab
      simp only [this, Bool.false_eq_true, if_false, Res.bind_ok]
      exact ⟨_, n, r, ρ, rfl, h, Nat.le_refl _, by omega⟩
  | resize m =>
    obtain ⟨i, h1, h2⟩ := h.resize m (hop m rfl)
    refine ⟨_, max n m, r, ρ, rfl, i, by omega, ?_⟩
    simp only [USet.cost]
    omega

theorem calls_amort (ops : List Call) : ∀ {s : USet} {n r ρ}, AInv s.core n r ρ → (∀ m, .resize m ∈ ops → m < W) →
    ∃ s' n' r' ρ' k, s.calls ops = .ok (s', k) ∧ AInv s'.core n' r' ρ' ∧ n ≤ n' ∧
      k + phi s'.core n' ρ' + given s.core n ρ ≤ phi s.core n ρ + given s'.core n' ρ' + ops.length * (2 * logStar n' + 6) := by
  induction ops with
  | nil => intro s n r ρ h _; exact ⟨s, n, r, ρ, 0, rfl, h, Nat.le_refl _, by simp⟩
  | cons op ops ih =>
    intro s n r ρ h hops
    obtain ⟨s1, n1, r1, ρ1, e1, i1, l1, k1⟩ := call_amort h op (fun m e => hops m (by simp [e]))
    obtain ⟨s2, n2, r2, ρ2, k, e2, i2, l2, k2⟩ := ih i1 (fun m hm => hops m (by simp [hm]))
    refine ⟨s2, n2, r2, ρ2, s.cost op + k, by simp only [USet.calls, e1, e2, Res.bind_ok], i2, by omega, ?_⟩
    have := logStar_mono (show n ≤ n2 by omega)
    rw [List.length_cons, Nat.add_mul]
    omega

theorem empty_ainv : AInv ⟨[], [], true⟩ 0 id (fun _ => 0) := by
  refine ⟨⟨rfl, rfl, W_pos, by simp, by simp, by simp, by simp, by simp, by simp⟩, rfl, fun t => ?_⟩
  simp [sumTo]

/-- **C186:** with path compression, which is the default, any history of `m` calls of `find`, `same`, `join`, `size_of` and `resize` on
a `union_set_t` that ends with `n` sets activates `_find` at most `m · (2 · log* n + 6) + n · (log* n + 1)` times. -/
theorem C186_amortised (capacity : Nat) (hc : capacity < W) (ops : List Call) (hops : ∀ m, .resize m ∈ ops → m < W) :
    ∃ s k, (USet.new capacity true).calls ops = .ok (s, k) ∧
      k ≤ ops.length * (2 * logStar s.core.parent.length + 6) + s.core.parent.length * (logStar s.core.parent.length + 1) := by
  obtain ⟨i0, p0, g0⟩ := AInv.resize (s := ⟨⟨[], [], true⟩, ⟨0, 0⟩⟩) empty_ainv capacity hc
  obtain ⟨s, n, r, ρ, k, e, i, _, hk⟩ := calls_amort ops i0 hops
  refine ⟨s, k, e, ?_⟩
  rw [i.inv.lenP]
  have h1 := given_le i.inv i.scarce
  have h2 : phi (⟨[], [], true⟩ : Core) 0 (fun _ => 0) = 0 := rfl
  rw [p0, g0, h2] at hk
  omega

/-- C186, what is counted: `_find(x)` returns exactly if it may nest as many activations as are counted. -/
theorem C186_calls {s n E} (h : Reach s n E) (x : Nat) (hx : x < n) (f : Nat) :
    (∃ y, findFuel f s.core x = .ok y) ↔ costFind s.core x ≤ f := by
  obtain ⟨r, ρ, hi, -⟩ := h.inv
  have key : ∀ g x f, x < n → ρ (r x) - ρ x < g → ((∃ y, findFuel f s.core x = .ok y) ↔ findCalls g s.core x ≤ f) := by
    intro g
    induction g with
    | zero => intro x f _ h; omega
    | succ g ih =>
      intro x f hx hg
      obtain ⟨p, h1, h2, h3, h4, h5⟩ := hi.par x hx
      cases f with
      | zero =>
        simp only [findFuel, findCalls, h1]
        constructor
        · rintro ⟨_, h⟩; cases h
        · intro h; split at h <;> omega
      | succ f =>
        by_cases hxp : x = p
        · simp only [findCalls, h1, if_pos hxp]
          refine ⟨fun _ => by omega, fun _ => ?_⟩
          have hr := h4 hxp.symm
          obtain ⟨c', e, _⟩ := CInv.findFuel (f + 1) s.core x hi hx (by rw [hr]; omega)
          exact ⟨_, e⟩
        · simp only [findCalls, h1, if_neg hxp]
          have hrho := h5 (Ne.symm hxp)
          have hmono : ρ p ≤ ρ (r p) := by
            by_cases e : p = r p
            · exact Nat.le_of_eq (congrArg ρ e)
            · exact Nat.le_of_lt (hi.mono p h2 e)
          rw [h3] at hmono
          have hI := ih p f h2 (by rw [h3]; omega)
          constructor
          · rintro ⟨⟨c', root⟩, h⟩
            obtain ⟨q, hq, ⟨hxq, _, _⟩ | ⟨_, _, hf⟩ | ⟨_, _, c1, hf, _⟩⟩ := findFuel_step h
            · rw [h1] at hq
              exact absurd (hxq.trans (Option.some.inj hq).symm) hxp
            · rw [h1] at hq
              rw [← Option.some.inj hq] at hf
              have := hI.1 ⟨_, hf⟩
              omega
            · rw [h1] at hq
              rw [← Option.some.inj hq] at hf
              have := hI.1 ⟨_, hf⟩
              omega
          · intro h
            obtain ⟨y, hy⟩ := hI.2 (by omega)
            obtain ⟨c1, hz, _⟩ := CInv.findFuel g s.core p hi h2 (by rw [h3]; omega)
            obtain ⟨c2, hb, _⟩ := CInv.findFuel (g + 1) s.core x hi hx hg
            have hyz : findFuel f s.core p = findFuel g s.core p := by
              have e1 := findFuel_le (show f ≤ max f g by omega) hy
              have e2 := findFuel_le (show g ≤ max f g by omega) hz
              rw [hy, hz, ← e1, e2]
            refine ⟨_, Eq.trans ?_ hb⟩
            have hrp : rd s.core.parent x = .ok p := rd_ok.2 h1
            simp only [UnionFind.findFuel, hrp, Res.bind_ok, hyz]
  have := hi.rho_lt x hx
  exact key _ x f hx (by rw [hi.lenP]; omega)

/-! ### `union_find_t` -/

inductive ECall (T : Type) where
  | insert (a : T) | find (a : T) | same (o : Bool) (a b : T) | join (o1 o2 : Bool) (a b : T) | sizeOf (a : T)

namespace UF
variable {T : Type} [DecidableEq T]

/-- A public call with elements, without its result. -/
def call (s : UF T) : ECall T → Res (UF T)
  | .insert a => .ok (s.insert a).1
  | .find a => do let (s, _) ← s.findByElem a; .ok s
  | .same o a b => do let (s, _) ← s.sameSetElems o a b; .ok s
  | .join o1 o2 a b => do let (s, _) ← s.joinSets o1 o2 a b; .ok s
  | .sizeOf a => do let (s, _) ← s.sizeOfElem a; .ok s

/-- The activations of `_find` in a public call. -/
def cost (s : UF T) : ECall T → Nat
  | .insert _ => 0
  | .find a | .sizeOf a =>
    match s.ids a with
    | some i => costFind s.core i
    | none => 0
  | .same o a b =>
    match s.ids a, s.ids b with
    | some i, some j => costSame o s.core i j
    | _, _ => 0
  | .join o1 o2 a b =>
    match s.ids a, s.ids b with
    | some i, some j => costJoin o1 o2 s.core i j
    | _, _ => 0

def calls (s : UF T) : List (ECall T) → Res (UF T × Nat)
  | [] => .ok (s, 0)
  | op :: ops => do
    let s' ← s.call op
    let (t, k) ← s'.calls ops
    .ok (t, s.cost op + k)

end UF

section
variable {T : Type} [DecidableEq T]

theorem ids_cases (s : UF T) (a : T) : (∃ i, s.ids a = some i) ∨ s.ids a = none := by
  cases h : s.ids a with
  | some i => exact .inl ⟨i, rfl⟩
  | none => exact .inr rfl

theorem ecall_amort {s : UF T} {n r ρ} (h : AInv s.core n r ρ) (hid : ∀ a i, s.ids a = some i → i < n) (hW : n + 1 < W)
    (op : ECall T) :
    ∃ s' n' r' ρ', s.call op = .ok s' ∧ AInv s'.core n' r' ρ' ∧ (∀ a i, s'.ids a = some i → i < n') ∧ n ≤ n' ∧ n' ≤ n + 1 ∧
      s.cost op + phi s'.core n' ρ' + given s.core n ρ ≤ phi s.core n ρ + given s'.core n' ρ' + (2 * logStar n + 6) := by
  cases op with
  | insert a =>
    simp only [UF.call, UF.cost, UF.insert, UF.exists]
    rcases ids_cases s a with ⟨i, e⟩ | e
    · skip
      simp only [e, Option.isSome_some, if_true]
      exact ⟨_, n, r, ρ, rfl, h, hid, Nat.le_refl _, by omega, by omega⟩
    · skip
      simp only [e, Option.isSome_none, Bool.false_eq_true, if_false]
      obtain ⟨i1, i2, i3⟩ := h.push hW
      rw [h.inv.lenP]
      refine ⟨_, n + 1, r, ρ, rfl, i1, ?_, by omega, by omega, by simp only; omega⟩
      intro b i hb
      simp only at hb
      split at hb
      · injection hb with hb; omega
      · have := hid b i hb; omega
  | find a =>
    simp only [UF.call, UF.cost, UF.findByElem, UF.exists, UF.idAt]
    rcases ids_cases s a with ⟨i, e⟩ | e
    · skip
      obtain ⟨e1, i1, g, k, _⟩ := h.find i (hid a i e)
      simp only [e, Option.isSome_some, Bool.not_true, Bool.false_eq_true, if_false, Res.bind_ok, e1]
      exact ⟨_, n, r, ρ, rfl, i1, hid, Nat.le_refl _, by omega, by simp only; omega⟩
    · skip
      simp only [e, Option.isSome_none, Bool.not_false, if_true, Res.bind_ok]
      exact ⟨_, n, r, ρ, rfl, h, hid, Nat.le_refl _, by omega, by omega⟩
  | sizeOf a =>
    simp only [UF.call, UF.cost, UF.sizeOfElem, UF.findByElem, UF.exists, UF.idAt]
    rcases ids_cases s a with ⟨i, e⟩ | e
    · skip
      obtain ⟨e1, i1, g, k, _⟩ := h.find i (hid a i e)
      obtain ⟨h1, h2, _⟩ := h.inv.root i (hid a i e)
      have hne : r i ≠ notFound := by unfold notFound; omega
      simp only [e, Option.isSome_some, Bool.not_true, Bool.false_eq_true, if_false, Res.bind_ok, e1, ne_eq, hne, not_false_eq_true,
        if_true, i1.inv.rd_root (r i) h1 h2]
      exact ⟨_, n, r, ρ, rfl, i1, hid, Nat.le_refl _, by omega, by simp only; omega⟩
    · skip
      simp only [e, Option.isSome_none, Bool.not_false, if_true, Res.bind_ok, ne_eq, not_true_eq_false, if_false]
      exact ⟨_, n, r, ρ, rfl, h, hid, Nat.le_refl _, by omega, by omega⟩
  | same o a b =>
    simp only [UF.call, UF.cost, UF.sameSetElems, UF.exists, UF.idAt]
    rcases ids_cases s a with ⟨i, e⟩ | e
    · skip
      rcases ids_cases s b with ⟨j, e'⟩ | e'
      · skip
        obtain ⟨c', e1, i1, g, k, _⟩ := h.sameSet o i j (hid a i e) (hid b j e')
        simp only [e, e', Option.isSome_some, Bool.and_true, if_true, Res.bind_ok, e1]
        exact ⟨_, n, r, ρ, rfl, i1, hid, Nat.le_refl _, by omega, by simp only; omega⟩
      · skip
        simp only [e, e', Option.isSome_none, Bool.and_false, Bool.false_eq_true, if_false, Res.bind_ok]
        exact ⟨_, n, r, ρ, rfl, h, hid, Nat.le_refl _, by omega, by omega⟩
    · skip
      simp only [e, Option.isSome_none, Bool.false_and, Bool.false_eq_true, if_false, Res.bind_ok]
      exact ⟨_, n, r, ρ, rfl, h, hid, Nat.le_refl _, by omega, by omega⟩
  | join o1 o2 a b =>
    simp only [UF.call, UF.cost, UF.joinSets, UF.exists, UF.idAt]
    rcases ids_cases s a with ⟨i, e⟩ | e
    · skip
      rcases ids_cases s b with ⟨j, e'⟩ | e'
      · skip
        obtain ⟨c', k', res, r', ρ', e1, i1, k⟩ := h.joinElems o1 o2 s.cnt i j (hid a i e) (hid b j e')
        simp only [e, e', Option.isSome_some, Bool.and_true, if_true, Res.bind_ok, e1]
        exact ⟨_, n, r', ρ', rfl, i1, hid, Nat.le_refl _, by omega, by simp only; omega⟩
      · skip
        simp only [e, e', Option.isSome_none, Bool.and_false, Bool.false_eq_true, if_false, Res.bind_ok]
        exact ⟨_, n, r, ρ, rfl, h, hid, Nat.le_refl _, by omega, by omega⟩
    · skip
      simp only [e, Option.isSome_none, Bool.false_and, Bool.false_eq_true, if_false, Res.bind_ok]
      exact ⟨_, n, r, ρ, rfl, h, hid, Nat.le_refl _, by omega, by omega⟩

theorem ecalls_amort (ops : List (ECall T)) : ∀ {s : UF T} {n r ρ}, AInv s.core n r ρ → (∀ a i, s.ids a = some i → i < n) →
    n + ops.length < W →
    ∃ s' n' r' ρ' k, s.calls ops = .ok (s', k) ∧ AInv s'.core n' r' ρ' ∧ n ≤ n' ∧
      k + phi s'.core n' ρ' + given s.core n ρ ≤ phi s.core n ρ + given s'.core n' ρ' + ops.length * (2 * logStar n' + 6) := by
  induction ops with
  | nil => intro s n r ρ h _ _; exact ⟨s, n, r, ρ, 0, rfl, h, Nat.le_refl _, by simp⟩
  | cons op ops ih =>
    intro s n r ρ h hid hW
    rw [List.length_cons] at hW
    obtain ⟨s1, n1, r1, ρ1, e1, i1, hid1, l1, m1, k1⟩ := ecall_amort h hid (by omega) op
    obtain ⟨s2, n2, r2, ρ2, k, e2, i2, l2, k2⟩ := ih i1 hid1 (by omega)
    refine ⟨s2, n2, r2, ρ2, s.cost op + k, by simp only [UF.calls, e1, e2, Res.bind_ok], i2, by omega, ?_⟩
    have := logStar_mono (show n ≤ n2 by omega)
    rw [List.length_cons, Nat.add_mul]
    omega

/-- **C186** for `union_find_t<T, true>` and calls with elements; the time of the hash map is not counted. -/
theorem C186_elements (ops : List (ECall T)) (hops : ops.length < W) :
    ∃ s k, (UF.new true : UF T).calls ops = .ok (s, k) ∧
      k ≤ ops.length * (2 * logStar s.core.parent.length + 6) + s.core.parent.length * (logStar s.core.parent.length + 1) := by
  obtain ⟨s, n, r, ρ, k, e, i, _, hk⟩ := ecalls_amort ops (s := UF.new true) empty_ainv (fun a i h => by cases h) (by omega)
  refine ⟨s, k, e, ?_⟩
  rw [i.inv.lenP]
  have h1 := given_le i.inv i.scarce
  have h2 : phi (⟨[], [], true⟩ : Core) 0 (fun _ => 0) = 0 := rfl
  have h3 : (UF.new true : UF T).core = ⟨[], [], true⟩ := rfl
  rw [h3, h2] at hk
  omega

end

/-- The iterated logarithm of everything that fits a `size_t` is at most four: a call activates `_find` 14 times at most, on the
average, and five more times for each element. -/
theorem C186_constant (n : Nat) (h : n < W) : logStar n ≤ 4 := by
  have h1 : W ≤ tw 6 := by
    have h5 : 64 ≤ tw 5 := by decide +kernel
    have := Nat.pow_le_pow_right (show 0 < 2 by omega) h5
    rw [show tw 6 = 2 ^ tw 5 from by rw [tw]]
    unfold W
    exact this
  by_cases h0 : n = 0
  · subst h0; rw [logStar]; simp
  · have h2 := (logStar_tw n (by omega)).1
    rcases Nat.lt_or_ge 4 (logStar n) with c | c
    · have := tw_mono (show 6 ≤ logStar n + 1 by omega)
      omega
    · exact c

/-- Eight elements in one tree. -/
def eight : List Call :=
  [.resize 8, .join false false 0 1, .join false false 2 3, .join false false 1 3, .join false false 4 5, .join false false 6 7,
    .join false false 5 7, .join false false 3 7]

/-- The number of activations of a history. -/
def spent {σ : Type} : Res (σ × Nat) → Option Nat
  | .ok (_, k) => some k
  | _ => none

/-- The first `find` of the deepest element takes four activations, the next one two. -/
example :
    [spent ((USet.new 0 true).calls eight), spent ((USet.new 0 true).calls (eight ++ [.find 0])),
      spent ((USet.new 0 true).calls (eight ++ [.find 0, .find 0])), spent ((USet.new 0 false).calls (eight ++ [.find 0, .find 0]))] =
      [some 28, some 32, some 34, some 36] := by decide +kernel

/-- The same with elements. -/
example :
    spent ((UF.new true : UF String).calls [.insert "a", .insert "b", .join false false "a" "b", .find "a", .find "c"]) =
      some 6 := by decide +kernel

example : logStar 1 = 0 ∧ logStar 2 = 1 ∧ logStar 4 = 2 ∧ logStar 16 = 3 ∧ logStar 65535 = 3 ∧ logStar 65536 = 4 := by decide +kernel

end Verif.UnionFind
