import Verif.Ip.Model
import Mathlib.Tactic.Ring

/-!
# Bytes as a number
-/
namespace Verif.Ip

/-- The number with the given bytes, highest first. -/
def num : List Nat → Nat
  | [] => 0
  | x :: a => x * 2 ^ (8 * a.length) + num a

def Bytes (a : List Nat) : Prop := ∀ x ∈ a, x < 256

theorem Bytes.head {x : Nat} {a : List Nat} (h : Bytes (x :: a)) : x < 256 := h x List.mem_cons_self
theorem Bytes.tail {x : Nat} {a : List Nat} (h : Bytes (x :: a)) : Bytes a := fun y hy => h y (List.mem_cons_of_mem _ hy)
theorem Bytes.cons {x : Nat} {a : List Nat} (h : x < 256) (ha : Bytes a) : Bytes (x :: a) := by
  intro y hy
  rcases List.mem_cons.1 hy with hy | hy
  · rw [hy]; exact h
  · exact ha y hy

theorem num_lt : ∀ {a : List Nat}, Bytes a → num a < 2 ^ (8 * a.length)
  | [], _ => by decide
  | x :: a, h => by
    have h1 := num_lt h.tail
    have h2 : (x + 1) * 2 ^ (8 * a.length) ≤ 256 * 2 ^ (8 * a.length) := Nat.mul_le_mul_right _ h.head
    rw [Nat.succ_mul] at h2
    rw [num, List.length_cons, show 8 * (a.length + 1) = 8 + 8 * a.length by ring, Nat.pow_add, show (2 : Nat) ^ 8 = 256 by decide]
    omega

theorem num_inj : ∀ {a b : List Nat}, a.length = b.length → Bytes a → Bytes b → num a = num b → a = b
  | [], [], _, _, _, _ => rfl
  | [], _ :: _, h, _, _, _ => by cases h
  | _ :: _, [], h, _, _, _ => by cases h
  | x :: a, y :: b, h, ha, hb, e => by
    have hl : a.length = b.length := by simpa using h
    have l1 := num_lt ha.tail
    have l2 := num_lt hb.tail
    rw [num, num, hl] at e
    rw [hl] at l1
    have hp := Nat.two_pow_pos (8 * b.length)
    have h1 : x = y := by
      have := congrArg (· / 2 ^ (8 * b.length)) e
      simpa [Nat.mul_comm _ (2 ^ (8 * b.length)), Nat.mul_add_div hp, Nat.div_eq_of_lt l1, Nat.div_eq_of_lt l2] using this
    rw [h1] at e
    rw [h1, num_inj hl ha.tail hb.tail (Nat.add_left_cancel e)]

/-- The bits of the first bytes. -/
theorem num_take : ∀ (k : Nat) {a : List Nat}, Bytes a → k ≤ a.length → num (a.take k) = num a / 2 ^ (8 * (a.length - k))
  | 0, a, h, _ => by
    rw [List.take_zero, Nat.sub_zero, Nat.div_eq_of_lt (num_lt h)]; rfl
  | k + 1, [], _, hk => by simp at hk
  | k + 1, x :: a, h, hk => by
    have hk' : k ≤ a.length := by simpa using hk
    rw [List.take_succ_cons, num, num_take k h.tail hk', num, List.length_take, Nat.min_eq_left hk', List.length_cons,
      show a.length + 1 - (k + 1) = a.length - k by omega]
    have : (2 : Nat) ^ (8 * a.length) = 2 ^ (8 * (a.length - k)) * 2 ^ (8 * k) := by
      rw [← Nat.pow_add]; congr 1; omega
    rw [this, show x * (2 ^ (8 * (a.length - k)) * 2 ^ (8 * k)) = 2 ^ (8 * (a.length - k)) * (x * 2 ^ (8 * k)) by ring,
      Nat.mul_add_div (Nat.two_pow_pos _)]

theorem num_drop : ∀ (k : Nat) {a : List Nat}, Bytes a → num (a.drop k) = num a % 2 ^ (8 * (a.length - k))
  | 0, a, h => by rw [List.drop_zero, Nat.sub_zero, Nat.mod_eq_of_lt (num_lt h)]
  | k + 1, [], _ => by simp [num]
  | k + 1, x :: a, h => by
    rw [List.drop_succ_cons, num_drop k h.tail, num, List.length_cons, show a.length + 1 - (k + 1) = a.length - k by omega]
    have : (2 : Nat) ^ (8 * a.length) = 2 ^ (8 * (a.length - k)) * 2 ^ (8 * (a.length - (a.length - k))) := by
      rw [← Nat.pow_add]; congr 1; omega
    rw [this, show x * (2 ^ (8 * (a.length - k)) * 2 ^ (8 * (a.length - (a.length - k)))) = 2 ^ (8 * (a.length - k)) * (x * 2 ^ (8 * (a.length - (a.length - k)))) by ring,
      Nat.mul_add_mod]

theorem Bytes.take {a : List Nat} (h : Bytes a) (k : Nat) : Bytes (a.take k) := fun x hx => h x (List.mem_of_mem_take hx)
theorem Bytes.drop {a : List Nat} (h : Bytes a) (k : Nat) : Bytes (a.drop k) := fun x hx => h x (List.mem_of_mem_drop hx)

/-- Comparing the first bytes is comparing the first bits. -/
theorem take_eq {a p : List Nat} (ha : Bytes a) (hp : Bytes p) (hl : p.length ≤ a.length) :
    (a.take p.length == p) = decide (num a / 2 ^ (8 * (a.length - p.length)) = num p) := by
  rw [← num_take p.length ha hl]
  by_cases h : a.take p.length = p
  · rw [h, beq_self_eq_true, decide_eq_true rfl]
  · rw [decide_eq_false (fun e => h (num_inj (by rw [List.length_take]; omega) (ha.take _) hp e))]
    simpa using h

/-! ## Masks -/

/-- The byte with its `k` highest bits set. -/
def top (k : Nat) : Nat := 256 - 2 ^ (8 - k)

/-- The mask of `n` bits. -/
def maskList : Nat → Nat → List Nat
  | 0, _ => []
  | l + 1, n => top (min 8 n) :: maskList l (n - 8)

set_option maxRecDepth 20000 in
theorem clearBits_table : ∀ n < 129, clearBits (128 - n) n (List.replicate 16 255) = maskList 16 n := by decide +kernel

set_option maxRecDepth 20000 in
theorem and_top : ∀ k < 9, ∀ x < 256, x &&& top k = x / 2 ^ (8 - k) * 2 ^ (8 - k) := by decide +kernel

set_option maxRecDepth 20000 in
theorem bits_table : ∀ x < 256, ∀ b < 9, (netmaskBits x = some b ↔ x = top b) := by decide +kernel

set_option maxRecDepth 20000 in
theorem bits_le : ∀ x < 256, ∀ b ∈ netmaskBits x, b < 9 := by decide +kernel

theorem top_lt (k : Nat) : top k < 256 := by
  have := Nat.two_pow_pos (8 - k)
  unfold top; omega

theorem top_inj : ∀ k < 9, ∀ j < 9, top k = top j → k = j := by decide

theorem maskList_length : ∀ l n, (maskList l n).length = l
  | 0, _ => rfl
  | l + 1, n => by rw [maskList, List.length_cons, maskList_length]

theorem maskList_bytes : ∀ l n, Bytes (maskList l n)
  | 0, _ => by intro x hx; cases hx
  | l + 1, n => Bytes.cons (top_lt _) (maskList_bytes l _)

theorem maskList_zero : ∀ l, maskList l 0 = List.replicate l 0
  | 0 => rfl
  | l + 1 => by rw [maskList, Nat.min_zero, Nat.zero_sub, maskList_zero l, List.replicate_succ]; rfl

theorem maskList_full : ∀ l, maskList l (8 * l) = List.replicate l 255
  | 0 => rfl
  | l + 1 => by
    rw [maskList, Nat.min_eq_left (by omega), show 8 * (l + 1) - 8 = 8 * l by omega, maskList_full l, List.replicate_succ]; rfl

theorem maskList_drop : ∀ (k l n : Nat), k ≤ l → (maskList l n).drop k = maskList (l - k) (n - 8 * k)
  | 0, l, n, _ => by simp
  | k + 1, 0, n, h => by omega
  | k + 1, l + 1, n, h => by
    rw [maskList, List.drop_succ_cons, maskList_drop k l _ (by omega), show l + 1 - (k + 1) = l - k by omega,
      show n - 8 - 8 * k = n - 8 * (k + 1) by omega]

theorem maskList_take : ∀ (k l n : Nat), k ≤ l → 8 * k ≤ n → (maskList l n).take k = List.replicate k 255
  | 0, l, n, _, _ => by simp
  | k + 1, 0, n, h, _ => by omega
  | k + 1, l + 1, n, h, hn => by
    rw [maskList, List.take_succ_cons, maskList_take k l _ (by omega) (by omega), Nat.min_eq_left (by omega), List.replicate_succ]; rfl

/-- Equal under the mask of `n` bits is equal in the first `n` bits. -/
theorem mask_eq : ∀ {a b : List Nat} {n : Nat}, a.length = b.length → Bytes a → Bytes b → n ≤ 8 * a.length →
    (andBytes a (maskList a.length n) = andBytes b (maskList a.length n) ↔ num a / 2 ^ (8 * a.length - n) = num b / 2 ^ (8 * a.length - n))
  | [], [], _, _, _, _, _ => by simp
  | [], _ :: _, _, h, _, _, _ => by cases h
  | _ :: _, [], _, h, _, _, _ => by cases h
  | x :: a, y :: b, n, h, ha, hb, hn => by
    have hl : a.length = b.length := by simpa using h
    have l1 := num_lt ha.tail
    have l2 := num_lt hb.tail
    rw [← hl] at l2
    have e1 : ∀ z (c : List Nat), andBytes (z :: c) (maskList (a.length + 1) n) = (z &&& top (min 8 n)) :: andBytes c (maskList a.length (n - 8)) := fun _ _ => rfl
    rw [List.length_cons] at hn ⊢
    rw [e1, e1, List.cons.injEq, and_top _ (by omega) _ ha.head, and_top _ (by omega) _ hb.head,
      mask_eq hl ha.tail hb.tail (by omega : n - 8 ≤ 8 * a.length), num, num, ← hl]
    have hx := ha.head
    have hy := hb.head
    rcases Nat.le_total n 8 with hn8 | hn8
    · -- only bits of this byte
      rw [Nat.min_eq_right hn8, show n - 8 = 0 by omega, Nat.sub_zero, Nat.div_eq_of_lt l1, Nat.div_eq_of_lt l2]
      have hd : ∀ z c, c < 2 ^ (8 * a.length) → (z * 2 ^ (8 * a.length) + c) / 2 ^ (8 * (a.length + 1) - n) = z / 2 ^ (8 - n) := by
        intro z c hc
        rw [show 8 * (a.length + 1) - n = 8 * a.length + (8 - n) by omega, Nat.pow_add, ← Nat.div_div_eq_div_mul, Nat.mul_comm z,
          Nat.mul_add_div (Nat.two_pow_pos _), Nat.div_eq_of_lt hc, Nat.add_zero]
      rw [hd x _ l1, hd y _ l2]
      constructor
      · rintro ⟨h1, _⟩
        exact Nat.eq_of_mul_eq_mul_right (Nat.two_pow_pos _) h1
      · intro h1; rw [h1]; exact ⟨rfl, rfl⟩
    · rw [Nat.min_eq_left hn8, Nat.sub_self, Nat.pow_zero, Nat.div_one, Nat.div_one, Nat.mul_one, Nat.mul_one,
        show 8 * (a.length + 1) - n = 8 * a.length - (n - 8) by omega]
      have hs : (2 : Nat) ^ (8 * a.length) = 2 ^ (8 * a.length - (n - 8)) * 2 ^ (n - 8) := by
        rw [← Nat.pow_add]; congr 1; omega
      have hd : ∀ z c, (z * 2 ^ (8 * a.length) + c) / 2 ^ (8 * a.length - (n - 8)) = z * 2 ^ (n - 8) + c / 2 ^ (8 * a.length - (n - 8)) := by
        intro z c
        conv => lhs; arg 1; rw [hs]
        rw [show z * (2 ^ (8 * a.length - (n - 8)) * 2 ^ (n - 8)) = 2 ^ (8 * a.length - (n - 8)) * (z * 2 ^ (n - 8)) by ring, Nat.mul_add_div (Nat.two_pow_pos _)]
      rw [hd, hd]
      have hr : ∀ c, c < 2 ^ (8 * a.length) → c / 2 ^ (8 * a.length - (n - 8)) < 2 ^ (n - 8) := by
        intro c hc
        rw [Nat.div_lt_iff_lt_mul (Nat.two_pow_pos _), Nat.mul_comm, ← hs]; exact hc
      have r1 := hr _ l1
      have r2 := hr _ l2
      constructor
      · rintro ⟨h1, h2⟩; rw [h1, h2]
      · intro h1
        have hp := Nat.two_pow_pos (n - 8)
        have hxy : x = y := by
          have := congrArg (· / 2 ^ (n - 8)) h1
          simpa [Nat.mul_comm _ (2 ^ (n - 8)), Nat.mul_add_div hp, Nat.div_eq_of_lt r1, Nat.div_eq_of_lt r2] using this
        rw [hxy] at h1
        exact ⟨hxy, Nat.add_left_cancel h1⟩

theorem andBytes_idem : ∀ (a m : List Nat), andBytes (andBytes a m) m = andBytes a m
  | [], _ => rfl
  | _ :: _, [] => rfl
  | x :: a, y :: m => by
    have e : ∀ u (c : List Nat), andBytes (u :: c) (y :: m) = (u &&& y) :: andBytes c m := fun _ _ => rfl
    rw [e, e, andBytes_idem a m, Nat.and_assoc, Nat.and_self]

theorem and_255 : ∀ x < 256, x &&& 255 = x := by decide +kernel

theorem andBytes_full : ∀ {a : List Nat}, Bytes a → andBytes a (List.replicate a.length 255) = a
  | [], _ => rfl
  | x :: a, h => by
    rw [List.length_cons, List.replicate_succ]
    show (x &&& 255) :: andBytes a (List.replicate a.length 255) = x :: a
    rw [andBytes_full h.tail, and_255 x h.head]

theorem andBytes_length {a m : List Nat} (h : m.length = a.length) : (andBytes a m).length = a.length := by
  unfold andBytes; rw [List.length_zipWith, h, Nat.min_self]

theorem andBytes_bytes : ∀ {a m : List Nat}, Bytes a → Bytes (andBytes a m)
  | [], _, _ => by intro x hx; cases hx
  | _ :: _, [], _ => by intro x hx; cases hx
  | x :: a, y :: m, h => Bytes.cons (Nat.lt_of_le_of_lt Nat.and_le_left h.head) (andBytes_bytes h.tail)

/-- A mask is written as a number of bits exactly if it is the mask of that many bits. -/
theorem cidr_iff : ∀ {m : List Nat} (n : Nat), Bytes m → (cidr m = some n ↔ n ≤ 8 * m.length ∧ m = maskList m.length n)
  | [], n, _ => by
    simp only [cidr, List.length_nil, Nat.mul_zero, Nat.le_zero, maskList, and_true, Option.some.injEq]
    exact eq_comm
  | x :: m, n, h => by
    rw [cidr, List.length_cons, maskList]
    have hm : ∀ k, k < 8 → (x = top k ∧ m = maskList m.length 0 → x ≠ 0xff) := by
      intro k hk hh he
      have := top_inj k (by omega) 8 (by omega) (hh.1.symm.trans he)
      omega
    split
    · rename_i hx
      constructor
      · intro hc
        cases hcm : cidr m with
        | none => rw [hcm] at hc; cases hc
        | some k =>
          rw [hcm] at hc
          simp only [Option.map_some, Option.some.injEq] at hc
          obtain ⟨h1, h2⟩ := (cidr_iff k h.tail).1 hcm
          refine ⟨by omega, ?_⟩
          rw [Nat.min_eq_left (by omega), show n - 8 = k by omega, ← h2, hx]
          rfl
      · rintro ⟨h1, h2⟩
        rw [List.cons.injEq] at h2
        have hn8 : 8 ≤ n := by
          by_contra hlt
          rw [Nat.min_eq_right (by omega)] at h2
          exact hm n (by omega) ⟨h2.1, by rw [show n - 8 = 0 by omega] at h2; exact h2.2⟩ hx
        rw [(cidr_iff (n - 8) h.tail).2 ⟨by omega, h2.2⟩]
        simp only [Option.map_some, Option.some.injEq]
        omega
    · rename_i hx
      constructor
      · intro hc
        cases hb : netmaskBits x with
        | none => rw [hb] at hc; cases hc
        | some b =>
          rw [hb] at hc
          dsimp only at hc
          split at hc
          · rename_i hall
            cases hc
            have hb9 := bits_le x h.head n (by rw [hb]; rfl)
            have htop := (bits_table x h.head n hb9).1 hb
            have hn8 : n < 8 := by
              rcases Nat.lt_or_ge n 8 with h1 | h1
              · exact h1
              · have : n = 8 := by omega
                rw [this] at htop
                exact absurd htop hx
            refine ⟨by omega, ?_⟩
            rw [Nat.min_eq_right (by omega), ← htop, show n - 8 = 0 by omega, maskList_zero]
            congr 1
            exact List.eq_replicate_iff.2 ⟨rfl, by simpa using hall⟩
          · cases hc
      · rintro ⟨h1, h2⟩
        rw [List.cons.injEq] at h2
        have hn8 : n < 8 := by
          by_contra hge
          rw [Nat.min_eq_left (by omega)] at h2
          exact hx h2.1
        rw [Nat.min_eq_right (by omega)] at h2
        rw [(bits_table x h.head n (by omega)).2 h2.1]
        have hall : m.all (· == 0) = true := by
          rw [h2.2, show n - 8 = 0 by omega, maskList_zero]
          simp
        exact if_pos hall

/-! ## Order -/

theorem bytesLt_num : ∀ {a b : List Nat}, a.length = b.length → Bytes a → Bytes b → (bytesLt a b = true ↔ num a < num b)
  | [], [], _, _, _ => by simp [bytesLt, num]
  | [], _ :: _, h, _, _ => by cases h
  | _ :: _, [], h, _, _ => by cases h
  | x :: a, y :: b, h, ha, hb => by
    have hl : a.length = b.length := by simpa using h
    have l1 := num_lt ha.tail
    have l2 := num_lt hb.tail
    rw [hl] at l1
    have step : ∀ u v : Nat, u < v → ∀ p q, p < 2 ^ (8 * b.length) → u * 2 ^ (8 * b.length) + p < v * 2 ^ (8 * b.length) + q := by
      intro u v huv p q hp
      have : (u + 1) * 2 ^ (8 * b.length) ≤ v * 2 ^ (8 * b.length) := Nat.mul_le_mul_right _ huv
      rw [Nat.succ_mul] at this
      omega
    rw [bytesLt, num, num, hl]
    split
    · rename_i hlt
      exact ⟨fun _ => step x y hlt _ _ l1, fun _ => rfl⟩
    · split
      · rename_i hgt
        have := step y x hgt (num b) (num a) l2
        constructor
        · intro h; cases h
        · intro h; omega
      · have hxy : x = y := by omega
        rw [bytesLt_num hl ha.tail hb.tail, hxy]
        omega

theorem num_append : ∀ (a b : List Nat), num (a ++ b) = num a * 2 ^ (8 * b.length) + num b
  | [], b => by rw [List.nil_append, num, Nat.zero_mul, Nat.zero_add]
  | x :: a, b => by
    rw [List.cons_append, num, num_append a b, num, List.length_append, show 8 * (a.length + b.length) = 8 * a.length + 8 * b.length by ring, Nat.pow_add]
    ring

theorem num_byte : ∀ {a : List Nat} (i : Nat), Bytes a → i < a.length → a.getD i 0 = num a / 2 ^ (8 * (a.length - 1 - i)) % 256
  | [], i, _, hi => by simp at hi
  | x :: a, 0, h, _ => by
    rw [num, List.length_cons, show a.length + 1 - 1 - 0 = a.length by omega, Nat.mul_comm x, Nat.mul_add_div (Nat.two_pow_pos _),
      Nat.div_eq_of_lt (num_lt h.tail), Nat.add_zero, Nat.mod_eq_of_lt h.head]
    rfl
  | x :: a, i + 1, h, hi => by
    have hi' : i < a.length := by simpa using hi
    rw [List.getD_cons_succ, num_byte i h.tail hi', num, List.length_cons, show a.length + 1 - 1 - (i + 1) = a.length - 1 - i by omega]
    have : (2 : Nat) ^ (8 * a.length) = 2 ^ (8 * (a.length - 1 - i)) * (2 ^ (8 * i) * 256) := by
      rw [show (256 : Nat) = 2 ^ 8 by decide, ← Nat.pow_add, ← Nat.pow_add]; congr 1; omega
    rw [this, show x * (2 ^ (8 * (a.length - 1 - i)) * (2 ^ (8 * i) * 256)) = 2 ^ (8 * (a.length - 1 - i)) * (256 * (x * 2 ^ (8 * i))) by ring,
      Nat.mul_add_div (Nat.two_pow_pos _), Nat.mul_add_mod]

end Verif.Ip
