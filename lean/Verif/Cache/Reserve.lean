import Verif.Cache.Props
import Mathlib.Algebra.Order.Floor.Semiring
import Mathlib.Data.Rat.Floor
import Mathlib.Tactic.Linarith
import Mathlib.Tactic.Positivity
import Mathlib.Tactic.NormNum

/-!
C201: the reservation of `set_capacity` (structures/cache.h:187-196): `_max_capacity = capacity * (1 + std::log2(capacity)); _map.reserve(_max_capacity)`,
which Model.lean leaves out.

`RCache` adds to the cache of Model.lean `_max_capacity` and the number of elements that `_map` holds without a rehash.
-/

namespace Verif.Cache
open Verif.Cache.Spec
variable {K : Type} [DecidableEq K]

/-- The library: `prod c` is the value of the floating point expression `c * (1 + std::log2(c))`; `resv room n` is the room of the map after
`reserve(n)`, `grow room n` that after the rehash for element number `n`, `room0` that of a new map. -/
structure Lib where
  prod : Nat → ℚ
  resv : Nat → Nat → Nat
  grow : Nat → Nat → Nat
  room0 : Nat

/-- What is assumed: `log2` is exact for 1 and the product is accurate to one part in `2^40`, with `log2 c` between its neighbouring whole numbers;
the map has the room that it was asked for. -/
structure Lib.Sane (L : Lib) : Prop where
  one : L.prod 1 = 1
  prod : ∀ c k : Nat, 2 ^ k ≤ c → c < 2 ^ (k + 1) → (c : ℚ) * (1 + k) * (1 - 1 / 2 ^ 40) ≤ L.prod c ∧ L.prod c ≤ (c : ℚ) * (2 + k) * (1 + 1 / 2 ^ 40)
  resv : ∀ room n, n ≤ L.resv room n
  grow : ∀ room n, n ≤ L.grow room n

/-- The cache, `_max_capacity` (cache.h:317), the room of `_map`, and how often an insertion had to rehash it. -/
structure RCache (K : Type) where
  c : Cache K
  maxCap : Nat
  room : Nat
  rehashes : Nat

/-- `_map[key] = …` of an absent key (cache.h:140): element number `n` of the map. -/
def RCache.insert (L : Lib) (r : RCache K) (n : Nat) : RCache K :=
  if r.room < n then { r with room := L.grow r.room n, rehashes := r.rehashes + 1 } else r

/-- cache.h:187-196 `set_capacity`.  The conversion of a floating point number of `2^64` or more to `size_t` is undefined. -/
def RCache.setCapacity (L : Lib) (r : RCache K) (capacity : Nat) : Res (RCache K) :=
  if r.maxCap < capacity then                                             -- :189
    if L.prod capacity < 2 ^ 64 then
      let m := ⌊L.prod capacity⌋₊                                         -- :190
      .ok { r with maxCap := m, room := L.resv r.room m, c := r.c.setCapacity capacity }   -- :191, 194-195
    else .ub
  else .ok { r with c := r.c.setCapacity capacity }                       -- :194-195

/-- cache.h:30 default constructor: `_max_capacity` is 1024, but nothing is reserved. -/
def RCache.newDefault (L : Lib) : RCache K := ⟨Cache.newDefault, 1024, L.room0, 0⟩

/-- cache.h:41-43 constructor. -/
def RCache.new (L : Lib) (capacity : Nat) : Res (RCache K) := RCache.setCapacity L ⟨Cache.newDefault, 0, L.room0, 0⟩ capacity

/-- One call (`step` of Model.lean).  `add` and `operator[]` of an absent key insert it before the cache is clipped (cache.h:138-141). -/
def RCache.step (L : Lib) (r : RCache K) (op : Op K) : Res (RCache K) :=
  match op with
  | .setCapacity n => r.setCapacity L n
  | .add k | .access k => do
    let r' := if r.c.contains k then r else r.insert L (r.c.size + 1)
    let (c, _) ← Verif.Cache.step r.c op
    .ok { r' with c := c }
  | op => do
    let (c, _) ← Verif.Cache.step r.c op
    .ok { r with c := c }

def RCache.run (L : Lib) (r : RCache K) : List (Op K) → Res (RCache K)
  | [] => .ok r
  | op :: ops => do
    let r ← r.step L op
    r.run L ops

/-! ### Specification -/

/-- The number of changes of the capacity. -/
def changes (ops : List (Op K)) : Nat := ops.countP fun op => match op with | .setCapacity _ => true | _ => false

/-- The capacities that are asked for. -/
def capacities : List (Op K) → List Nat
  | [] => []
  | .setCapacity n :: ops => n :: capacities ops
  | _ :: ops => capacities ops

/-- The full claim: every capacity can be set, and a cache never rehashes its map while it is filled, however it was made. -/
def C201_statement : Prop := ∀ (L : Lib), L.Sane →
  (∀ n, ∃ r : RCache Nat, RCache.new L n = .ok r ∧ ∀ ops r', r.run L ops = .ok r' → r'.rehashes = 0) ∧
  (∀ ops r', (RCache.newDefault L : RCache Nat).run L ops = .ok r' → r'.rehashes = 0)

/-! ### Lemmas -/

/-- A capacity below `2^58` can be converted, and the room is greater than the capacity (from two elements on). -/
theorem Lib.Sane.fits {L : Lib} (h : L.Sane) {c : Nat} (h0 : 1 ≤ c) (hc : c < 2 ^ 58) :
    L.prod c < 2 ^ 64 ∧ c ≤ ⌊L.prod c⌋₊ ∧ (2 ≤ c → c + 1 ≤ ⌊L.prod c⌋₊) := by
  obtain ⟨h1, h2⟩ := h.prod c (Nat.log2 c) (Nat.log2_self_le (by omega)) Nat.lt_log2_self
  have hk : Nat.log2 c < 58 := (Nat.log2_lt (by omega)).2 hc
  have hcq : (c : ℚ) ≤ 2 ^ 58 := by exact_mod_cast Nat.le_of_lt hc
  have hkq : ((Nat.log2 c : Nat) : ℚ) ≤ 57 := by exact_mod_cast Nat.le_of_lt_succ hk
  have hk0 : (0 : ℚ) ≤ ((Nat.log2 c : Nat) : ℚ) := Nat.cast_nonneg _
  have hc0 : (0 : ℚ) ≤ c := Nat.cast_nonneg _
  have up : L.prod c < 2 ^ 64 := by
    have a : (c : ℚ) * (2 + (Nat.log2 c : Nat)) ≤ 2 ^ 58 * 59 := mul_le_mul hcq (by linarith) (by linarith) (by norm_num)
    have b : (c : ℚ) * (2 + (Nat.log2 c : Nat)) * (1 + 1 / 2 ^ 40) ≤ 2 ^ 58 * 59 * (1 + 1 / 2 ^ 40) := mul_le_mul_of_nonneg_right a (by norm_num)
    have d : (2 : ℚ) ^ 58 * 59 * (1 + 1 / 2 ^ 40) < 2 ^ 64 := by norm_num
    exact lt_of_le_of_lt (le_trans h2 b) d
  have two : 2 ≤ c → c + 1 ≤ ⌊L.prod c⌋₊ := by
    intro h2c
    have hk1 : 1 ≤ Nat.log2 c := (Nat.le_log2 (by omega)).2 (by omega)
    have hk1q : (1 : ℚ) ≤ ((Nat.log2 c : Nat) : ℚ) := by exact_mod_cast hk1
    have h2q : (2 : ℚ) ≤ c := by exact_mod_cast h2c
    apply Nat.le_floor
    push_cast
    have a : (c : ℚ) * 2 ≤ (c : ℚ) * (1 + (Nat.log2 c : Nat)) := mul_le_mul_of_nonneg_left (by linarith) hc0
    have b : (c : ℚ) * 2 * (1 - 1 / 2 ^ 40) ≤ (c : ℚ) * (1 + (Nat.log2 c : Nat)) * (1 - 1 / 2 ^ 40) := mul_le_mul_of_nonneg_right a (by norm_num)
    have d : (c : ℚ) + 1 ≤ (c : ℚ) * 2 * (1 - 1 / 2 ^ 40) := by
      have : (0 : ℚ) ≤ (c - 2) * (1 - 2 / 2 ^ 40) := mul_nonneg (by linarith) (by norm_num)
      have e : (c : ℚ) * 2 * (1 - 1 / 2 ^ 40) - (c + 1) = (c - 2) * (1 - 2 / 2 ^ 40) + (1 - 4 / 2 ^ 40) := by ring
      have f : (0 : ℚ) ≤ 1 - 4 / 2 ^ 40 := by norm_num
      linarith
    exact le_trans d (le_trans b h1)
  refine ⟨up, ?_, two⟩
  by_cases h2c : 2 ≤ c
  · exact le_trans (Nat.le_succ c) (two h2c)
  · have : c = 1 := by omega
    subst this
    rw [h.one]
    simp

/-- A capacity of `2^59` or more cannot. -/
theorem Lib.Sane.overflows {L : Lib} (h : L.Sane) {c : Nat} (hc : 2 ^ 59 ≤ c) : ¬ L.prod c < 2 ^ 64 := by
  have hc1 : c ≠ 0 := by have : 0 < 2 ^ 59 := by norm_num
                         omega
  obtain ⟨h1, -⟩ := h.prod c (Nat.log2 c) (Nat.log2_self_le hc1) Nat.lt_log2_self
  have hk : 59 ≤ Nat.log2 c := (Nat.le_log2 hc1).2 hc
  have hkq : (59 : ℚ) ≤ ((Nat.log2 c : Nat) : ℚ) := by exact_mod_cast hk
  have hcq : (2 : ℚ) ^ 59 ≤ c := by exact_mod_cast hc
  have a : (2 : ℚ) ^ 59 * 60 ≤ (c : ℚ) * (1 + (Nat.log2 c : Nat)) := mul_le_mul hcq (by linarith) (by norm_num) (Nat.cast_nonneg _)
  have b : (2 : ℚ) ^ 59 * 60 * (1 - 1 / 2 ^ 40) ≤ (c : ℚ) * (1 + (Nat.log2 c : Nat)) * (1 - 1 / 2 ^ 40) := mul_le_mul_of_nonneg_right a (by norm_num)
  have d : (2 : ℚ) ^ 64 ≤ 2 ^ 59 * 60 * (1 - 1 / 2 ^ 40) := by norm_num
  exact not_lt.2 (le_trans d (le_trans b h1))

theorem setCapacity_max (c : Cache K) (n : Nat) : (c.setCapacity n).maxElements = n := by
  have a : abs (c.setCapacity n) = ({ abs c with cap := n }).trim := by
    unfold Cache.setCapacity; rw [clip_abs]; rfl
  exact congrArg LRU.cap a

/-- Only `set_capacity` changes the capacity. -/
theorem LRU_step_cap {s s' : LRU K} {op : Op K} {o : Out K} (h : s.step op = .ok (s', o)) (hn : ∀ n, op ≠ .setCapacity n) : s'.cap = s.cap := by
  have hadd : ∀ k, (s.add k).cap = s.cap := by
    intro k; unfold LRU.add; split <;> rfl
  cases op with
  | add k => simp only [LRU.step, Res.ok.injEq, Prod.mk.injEq] at h; rw [← h.1]; exact hadd k
  | find k =>
    simp only [LRU.step] at h
    split at h <;> (simp only [Res.ok.injEq, Prod.mk.injEq] at h; rw [← h.1]) <;> rfl
  | access k =>
    simp only [LRU.step] at h
    split at h
    · simp only [Res.ok.injEq, Prod.mk.injEq] at h; rw [← h.1]; rfl
    · split at h
      · cases h
      · simp only [Res.ok.injEq, Prod.mk.injEq] at h; rw [← h.1]; exact hadd k
  | remove k => simp only [LRU.step, Res.ok.injEq, Prod.mk.injEq] at h; rw [← h.1]
  | clear => simp only [LRU.step, Res.ok.injEq, Prod.mk.injEq] at h; rw [← h.1]
  | setCapacity n => exact absurd rfl (hn n)
  | clip => simp only [LRU.step, Res.ok.injEq, Prod.mk.injEq] at h; rw [← h.1]; rfl

/-- The invariant of a cache made with a capacity: `credit` rehashes are paid for. -/
structure RInv (r : RCache K) (credit : Nat) : Prop where
  inv : Inv r.c
  len : r.c.values.length ≤ r.c.maxElements
  cap : r.c.maxElements ≤ r.maxCap
  room : r.maxCap ≤ r.room
  paid : r.rehashes + (if r.room ≤ r.c.maxElements then 1 else 0) ≤ credit

theorem RInv.setCapacity {L : Lib} (hL : L.Sane) {r : RCache K} {credit : Nat} (h : RInv r credit) {n : Nat} (hn : n < 2 ^ 58) :
    ∃ r', r.setCapacity L n = .ok r' ∧ RInv r' (credit + 1) ∧ r'.c = r.c.setCapacity n := by
  have hp := h.paid
  have hi : Inv (r.c.setCapacity n) ∧ (r.c.setCapacity n).values.length ≤ (r.c.setCapacity n).maxElements := by
    rcases h.inv.step h.len (.setCapacity n) with ⟨c1, o, e, i, a⟩ | ⟨e, -⟩
    · have e' : c1 = r.c.setCapacity n := by injection e with e; injection e with e _; exact e.symm
      subst e'
      exact ⟨i, step_len (s := abs r.c) h.len a⟩
    · cases e
  unfold RCache.setCapacity
  by_cases hlt : r.maxCap < n
  · obtain ⟨f1, f2, -⟩ := hL.fits (by omega : 1 ≤ n) hn
    rw [if_pos hlt, if_pos f1]
    refine ⟨_, rfl, ⟨hi.1, hi.2, ?_, hL.resv _ _, ?_⟩, rfl⟩
    · rw [setCapacity_max]; exact f2
    · show r.rehashes + _ ≤ _
      split at hp <;> split <;> omega
  · rw [if_neg hlt]
    refine ⟨_, rfl, ⟨hi.1, hi.2, ?_, h.room, ?_⟩, rfl⟩
    · rw [setCapacity_max]; exact Nat.le_of_not_lt hlt
    · show r.rehashes + _ ≤ _
      split at hp <;> split <;> omega

theorem RInv.step {L : Lib} (hL : L.Sane) {r r' : RCache K} {credit : Nat} (h : RInv r credit) {op : Op K} (hn : ∀ n, op ≠ .setCapacity n)
    (e : r.step L op = .ok r') : RInv r' credit ∧ r'.c.maxElements = r.c.maxElements ∧ r'.maxCap = r.maxCap := by
  have size_eq : r.c.size = r.c.values.length := by simp [Cache.size, Cache.values]
  have key : ∀ c o, Verif.Cache.step r.c op = .ok (c, o) → Inv c ∧ c.values.length ≤ c.maxElements ∧ c.maxElements = r.c.maxElements := by
    intro c o ec
    rcases h.inv.step h.len op with ⟨c1, o1, e1, i, a⟩ | ⟨e1, -⟩
    · have : c1 = c := by rw [e1] at ec; injection ec with ec; injection ec with ec _
      subst this
      exact ⟨i, step_len (s := abs r.c) h.len a, LRU_step_cap a hn⟩
    · rw [e1] at ec; cases ec
  have plain : ∀ c o, Verif.Cache.step r.c op = .ok (c, o) → RInv { r with c := c } credit ∧ c.maxElements = r.c.maxElements := by
    intro c o ec
    obtain ⟨i, l, m⟩ := key c o ec
    refine ⟨⟨i, l, ?_, h.room, ?_⟩, m⟩
    · show c.maxElements ≤ _; rw [m]; exact h.cap
    · show r.rehashes + (if r.room ≤ c.maxElements then 1 else 0) ≤ credit; rw [m]; exact h.paid
  have ins : ∀ c o k, Verif.Cache.step r.c op = .ok (c, o) →
      RInv { (if r.c.contains k then r else r.insert L (r.c.size + 1)) with c := c } credit ∧ c.maxElements = r.c.maxElements ∧
      (if r.c.contains k then r else r.insert L (r.c.size + 1)).maxCap = r.maxCap := by
    intro c o k ec
    obtain ⟨p, m⟩ := plain c o ec
    split
    · exact ⟨p, m, rfl⟩
    · unfold RCache.insert
      split
      · next hr =>
        -- the map is full: `size = _max_elements = _max_capacity = room`
        refine ⟨⟨p.inv, p.len, p.cap, ?_, ?_⟩, m, rfl⟩
        · show r.maxCap ≤ L.grow _ _
          have := hL.grow r.room (r.c.size + 1)
          have h1 := h.len; have h2 := h.cap; have h3 := h.room
          omega
        · show r.rehashes + 1 + (if L.grow _ _ ≤ c.maxElements then 1 else 0) ≤ credit
          have := hL.grow r.room (r.c.size + 1)
          have h1 := h.len; have h2 := h.cap; have h3 := h.room; have h4 := h.paid
          rw [if_pos (by omega)] at h4
          rw [if_neg (by omega)]
          omega
      · exact ⟨p, m, rfl⟩
  cases op with
  | setCapacity n => exact absurd rfl (hn n)
  | add k =>
    obtain ⟨⟨c, o⟩, ec, e⟩ := Res.bind_eq_ok.1 e
    injection e with e; subst e
    exact ins c o k ec
  | access k =>
    obtain ⟨⟨c, o⟩, ec, e⟩ := Res.bind_eq_ok.1 e
    injection e with e; subst e
    exact ins c o k ec
  | find k =>
    obtain ⟨⟨c, o⟩, ec, e⟩ := Res.bind_eq_ok.1 e
    injection e with e; subst e
    obtain ⟨p, m⟩ := plain c o ec
    exact ⟨p, m, rfl⟩
  | remove k =>
    obtain ⟨⟨c, o⟩, ec, e⟩ := Res.bind_eq_ok.1 e
    injection e with e; subst e
    obtain ⟨p, m⟩ := plain c o ec
    exact ⟨p, m, rfl⟩
  | clear =>
    obtain ⟨⟨c, o⟩, ec, e⟩ := Res.bind_eq_ok.1 e
    injection e with e; subst e
    obtain ⟨p, m⟩ := plain c o ec
    exact ⟨p, m, rfl⟩
  | clip =>
    obtain ⟨⟨c, o⟩, ec, e⟩ := Res.bind_eq_ok.1 e
    injection e with e; subst e
    obtain ⟨p, m⟩ := plain c o ec
    exact ⟨p, m, rfl⟩

theorem RInv.run {L : Lib} (hL : L.Sane) (ops : List (Op K)) : ∀ {r r' : RCache K} {credit : Nat}, RInv r credit → (∀ n ∈ capacities ops, n < 2 ^ 58) →
    r.run L ops = .ok r' → RInv r' (credit + changes ops) := by
  induction ops with
  | nil => intro r r' credit h _ e; injection e with e; subst e; exact h
  | cons op ops ih =>
    intro r r' credit h hc e
    obtain ⟨r1, e1, e2⟩ := Res.bind_eq_ok.1 e
    by_cases hs : ∃ n, op = .setCapacity n
    · obtain ⟨n, rfl⟩ := hs
      obtain ⟨r2, e3, h3, -⟩ := h.setCapacity hL (hc n (by simp [capacities]))
      have : r1 = r2 := by
        have e1 : r.setCapacity L n = .ok r1 := e1
        rw [e3] at e1; injection e1 with e1; exact e1.symm
      subst this
      have := ih h3 (fun m hm => hc m (by simp [capacities, hm])) e2
      have ch : changes (.setCapacity n :: ops : List (Op K)) = changes ops + 1 := by simp [changes]
      rw [ch]
      rw [show credit + (changes ops + 1) = credit + 1 + changes ops by omega]
      exact this
    · have hs' : ∀ n, op ≠ .setCapacity n := fun n e => hs ⟨n, e⟩
      obtain ⟨h3, -⟩ := h.step hL hs' e1
      have hcap : capacities (op :: ops) = capacities ops := by cases op <;> first | rfl | exact absurd rfl (hs' _)
      have hch : changes (op :: ops) = changes ops := by cases op <;> first | exact absurd rfl (hs' _) | simp [changes]
      rw [hch]
      rw [hcap] at hc
      exact ih h3 hc e2

/-- A new cache: one rehash is paid for. -/
theorem RInv.new {L : Lib} (hL : L.Sane) {n : Nat} (hn : n < 2 ^ 58) : ∃ r : RCache K, RCache.new L n = .ok r ∧ RInv r 1 ∧ r.c = Cache.new n := by
  have hi : Inv (Cache.new (K := K) n) ∧ (Cache.new (K := K) n).values.length ≤ (Cache.new (K := K) n).maxElements := init_inv (.inr ⟨n, rfl⟩)
  have hm : (Cache.new (K := K) n).maxElements = n := setCapacity_max _ _
  unfold RCache.new RCache.setCapacity
  by_cases h0 : 0 < n
  · obtain ⟨f1, f2, -⟩ := hL.fits (by omega : 1 ≤ n) hn
    rw [if_pos h0, if_pos f1]
    refine ⟨_, rfl, ⟨hi.1, hi.2, ?_, hL.resv _ _, ?_⟩, rfl⟩
    · show (Cache.new (K := K) n).maxElements ≤ _; rw [hm]; exact f2
    · show 0 + _ ≤ 1; split <;> omega
  · rw [if_neg h0]
    refine ⟨_, rfl, ⟨hi.1, hi.2, ?_, Nat.zero_le _, ?_⟩, rfl⟩
    · show (Cache.new (K := K) n).maxElements ≤ 0; rw [hm]; omega
    · show 0 + _ ≤ 1; split <;> omega

/-! ### C201 -/

/-- Every capacity below `2^58` can be set; none of `2^59` or more can be, unless as much has been reserved before: the conversion to
`size_t` is undefined. -/
theorem C201_defined_partial {L : Lib} (hL : L.Sane) (r : RCache K) (n : Nat) :
    (n < 2 ^ 58 → ∃ r', r.setCapacity L n = .ok r') ∧ (2 ^ 59 ≤ n → (r.setCapacity L n = .ub ↔ r.maxCap < n)) := by
  refine ⟨fun hn => ?_, fun hn => ?_⟩
  · unfold RCache.setCapacity
    split
    · next h => rw [if_pos (hL.fits (by omega) hn).1]; exact ⟨_, rfl⟩
    · exact ⟨_, rfl⟩
  · unfold RCache.setCapacity
    split
    · next h => rw [if_neg (hL.overflows hn)]; exact ⟨fun _ => h, fun _ => rfl⟩
    · next h => exact ⟨fun e => (by cases e), fun h' => absurd h' h⟩

/-- A cache made with a capacity rehashes its map at most once for each time that its capacity was set, however many elements come and go. -/
theorem C201_rehashes_partial {L : Lib} (hL : L.Sane) {n : Nat} (hn : n < 2 ^ 58) :
    ∃ r : RCache K, RCache.new L n = .ok r ∧ ∀ ops r', (∀ m ∈ capacities ops, m < 2 ^ 58) → r.run L ops = .ok r' → r'.rehashes ≤ 1 + changes ops := by
  obtain ⟨r, e, h, -⟩ := RInv.new (K := K) hL hn
  refine ⟨r, e, fun ops r' hc e' => ?_⟩
  have := (h.run hL ops hc e').paid
  omega

/-- With a capacity of two or more that is not changed, it never does. -/
theorem C201_fixed_partial {L : Lib} (hL : L.Sane) {n : Nat} (h2 : 2 ≤ n) (hn : n < 2 ^ 58) :
    ∃ r : RCache K, RCache.new L n = .ok r ∧ ∀ ops r', changes ops = 0 → r.run L ops = .ok r' → r'.rehashes = 0 ∧ r'.c.size ≤ n ∧ n < r'.room := by
  obtain ⟨r, e, h, hc⟩ := RInv.new (K := K) hL hn
  refine ⟨r, e, ?_⟩
  have hm : r.c.maxElements = n := by rw [hc]; exact setCapacity_max _ _
  have hcap : n < r.maxCap ∧ r.rehashes = 0 := by
    unfold RCache.new RCache.setCapacity at e
    obtain ⟨f1, -, f3⟩ := hL.fits (by omega : 1 ≤ n) hn
    rw [if_pos (show 0 < n by omega), if_pos f1] at e
    injection e with e
    subst e
    exact ⟨f3 h2, rfl⟩
  have h' : RInv r 0 := ⟨h.inv, h.len, h.cap, h.room, by rw [if_neg (by have := h.room; omega)]; omega⟩
  intro ops
  have gen : ∀ (ops : List (Op K)) (r r' : RCache K), RInv r 0 → r.c.maxElements = n → n < r.maxCap → changes ops = 0 → r.run L ops = .ok r' →
      r'.rehashes = 0 ∧ r'.c.size ≤ n ∧ n < r'.room := by
    intro ops
    induction ops with
    | nil =>
      intro r r' h hm hc _ e
      injection e with e
      subst e
      have h1 := h.paid; have h2 := h.len; have h3 := h.room
      have : r.c.size = r.c.values.length := by simp [Cache.size, Cache.values]
      exact ⟨by omega, by omega, by omega⟩
    | cons op ops ih =>
      intro r r' h hm hc hch e
      obtain ⟨r1, e1, e2⟩ := Res.bind_eq_ok.1 e
      have hs : ∀ m, op ≠ .setCapacity m := by
        rintro m rfl
        simp [changes] at hch
      obtain ⟨h3, h4, h5⟩ := h.step hL hs e1
      refine ih r1 r' h3 (h4.trans hm) (by omega) ?_ e2
      unfold changes at hch ⊢
      rw [List.countP_cons] at hch
      omega
  intro r' hch e'
  exact gen ops r r' h' hm hcap.1 hch e'

/-- A library like libstdc++, but with no room to spare: the room is what was asked for, and a full map doubles. -/
def demoLib : Lib where
  prod c := if c = 1 then 1 else c * (1 + (Nat.log2 c : Nat))
  resv room n := max room n
  grow room n := max (2 * room) n
  room0 := 1

theorem demoLib_sane : demoLib.Sane where
  one := by simp [demoLib]
  prod c k h1 h2 := by
    have hc0 : c ≠ 0 := by have := Nat.two_pow_pos k; omega
    have hk : Nat.log2 c = k := by
      apply Nat.le_antisymm
      · exact Nat.le_of_lt_succ ((Nat.log2_lt hc0).2 h2)
      · exact (Nat.le_log2 hc0).2 h1
    have hv : demoLib.prod c = (c : ℚ) * (1 + k) := by
      unfold demoLib
      simp only
      split
      · next e => subst e; have : k = 0 := by rw [← hk]; rfl
                  subst this; simp
      · rw [hk]
    rw [hv]
    have hp : (0 : ℚ) ≤ (c : ℚ) * (1 + k) := by positivity
    have hq : (0 : ℚ) ≤ (c : ℚ) := by positivity
    constructor
    · have : (c : ℚ) * (1 + k) * (1 - 1 / 2 ^ 40) ≤ (c : ℚ) * (1 + k) * 1 := mul_le_mul_of_nonneg_left (by norm_num) hp
      linarith
    · have : (c : ℚ) * (2 + k) * 1 ≤ (c : ℚ) * (2 + k) * (1 + 1 / 2 ^ 40) := mul_le_mul_of_nonneg_left (by norm_num) (by positivity)
      have e : (c : ℚ) * (2 + k) = c * (1 + k) + c := by ring
      linarith
  resv _ _ := Nat.le_max_right _ _
  grow _ _ := Nat.le_max_right _ _

/-- The number of rehashes of a run. -/
def RCache.count (r : Res (RCache Nat)) : Option Nat :=
  match r with
  | .ok r => some r.rehashes
  | _ => none

/-- A capacity of `2^59` is undefined behaviour. -/
theorem C201_counterexample : ¬ C201_statement := by
  intro h
  obtain ⟨r, e, -⟩ := (h demoLib demoLib_sane).1 (2 ^ 59)
  have := ((C201_defined_partial (K := Nat) demoLib_sane ⟨Cache.newDefault, 0, demoLib.room0, 0⟩ (2 ^ 59)).2 (Nat.le_refl _)).2 (by norm_num)
  unfold RCache.new at e
  rw [this] at e
  cases e

/-- A cache of capacity 1024 made by the default constructor has reserved nothing: it rehashes while it is filled; and a cache made for two elements that
is then set to the four that are reserved rehashes at the fifth. -/
theorem C201_counterexample_rehash :
    RCache.count ((RCache.newDefault demoLib).run demoLib [.add 1, .add 2, .add 3, .add 4, .add 5]) = some 3 ∧
    RCache.count (RCache.new demoLib 2 >>= fun r => r.run demoLib [.setCapacity 4, .add 1, .add 2, .add 3, .add 4, .add 5, .add 6]) = some 1 ∧
    RCache.count (RCache.new demoLib 1024 >>= fun r => r.run demoLib [.add 1, .add 2, .add 3, .add 4, .add 5]) = some 0 := by
  decide +kernel

example : RCache.count (RCache.new demoLib 0 >>= fun r => r.run demoLib [.add 1, .setCapacity 1, .add 1, .add 2, .access 3, .find 3, .remove 3, .add 4]) =
    some 1 := by decide +kernel

end Verif.Cache
