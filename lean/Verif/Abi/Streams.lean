import Verif.Abi.Model
import Mathlib.Tactic.Ring
/-!
# Byte streams: specification and lemmas
-/
namespace Verif.Abi
open Verif

/-! ## Specification -/

/-- The values a C++ variable of the type can hold (containers below `2^32` elements, the count
being sent as a 32-bit number). -/
def Good : (t : Ty) → t.Val → Prop
  | .fixed n, v => (show Nat from v) < 256 ^ n
  | .bool, _ => True
  | .varu, v => (show Nat from v) < 2 ^ 32
  | .vari, v => -2 ^ 31 ≤ (show Int from v) ∧ (show Int from v) < 2 ^ 31
  | .str, v => List.length v < 2 ^ 32
  | .vec t, v => List.length v < 2 ^ 32 ∧ ∀ x ∈ (show List t.Val from v), Good t x
  | .opt t, v => ∀ x, (show Option t.Val from v) = some x → Good t x
  | .pair a b, v => Good a v.1 ∧ Good b v.2
  | .unit, _ => True

/-- The largest container inside a value. -/
def largest : (t : Ty) → t.Val → Nat
  | .str, v => List.length v
  | .vec t, v => max (List.length v) ((List.map (largest t) v).foldr max 0)
  | .opt t, v => match (show Option t.Val from v) with
    | none => 0
    | some x => largest t x
  | .pair a b, v => max (largest a v.1) (largest b v.2)
  | _, _ => 0

/-- Every value takes at least one byte, at every level that can repeat. -/
def Solid : Ty → Prop
  | .fixed n => 0 < n
  | .vec t => Solid t
  | .opt t => Solid t
  | .pair a b => Solid a ∧ Solid b
  | .unit => False
  | _ => True

/-! ## Variable length integers -/

theorem putVar_lt {v : Nat} (h : v < 128) : putVar v = [v] := by rw [putVar, dif_pos h]
theorem putVar_ge {v : Nat} (h : ¬ v < 128) : putVar v = (v % 128 + 128) :: putVar (v / 128) := by
  rw [putVar, dif_neg h]

theorem or_high {acc x sh : Nat} (h : acc < 2 ^ sh) : acc ||| (x * 2 ^ sh) = acc + x * 2 ^ sh := by
  have := Nat.two_pow_add_eq_or_of_lt h x
  rw [Nat.or_comm, Nat.mul_comm, ← this]; omega

theorem getVar_loop {v acc sh : Nat} {rest : List Nat} (hsh : sh < 32) (hacc : acc < 2 ^ sh)
    (hv : v * 2 ^ sh < 2 ^ 32) : getVarLoop acc sh (putVar v ++ rest) = .ok (acc + v * 2 ^ sh) rest 0 := by
  induction v using Nat.strongRecOn generalizing acc sh with
  | _ v ih =>
    by_cases h : v < 128
    · rw [putVar_lt h]
      simp only [List.cons_append, List.nil_append, getVarLoop]
      rw [if_neg (by omega), if_neg (by omega), Nat.mod_eq_of_lt h, Nat.shiftLeft_eq,
        Nat.mod_eq_of_lt hv, or_high hacc]
    · rw [putVar_ge h]
      simp only [List.cons_append, getVarLoop]
      rw [if_neg (by omega), if_pos (by omega)]
      have e1 : (v % 128 + 128) % 128 = v % 128 := by omega
      have hdm := Nat.div_add_mod v 128
      have hp : 0 < 2 ^ sh := Nat.pow_pos (by omega)
      have hmv : v % 128 * 2 ^ sh ≤ v * 2 ^ sh := Nat.mul_le_mul_right _ (Nat.mod_le _ _)
      have hsplit : v * 2 ^ sh = v % 128 * 2 ^ sh + v / 128 * 2 ^ (sh + 7) := by
        conv_lhs => rw [← hdm]
        rw [Nat.pow_add]; ring
      have hq : 1 ≤ v / 128 := by omega
      have hsh7 : sh + 7 < 32 := by
        by_contra hcon
        have h1 : 2 ^ 32 ≤ 2 ^ (sh + 7) := Nat.pow_le_pow_right (by omega) (by omega)
        have h2 : 1 * 2 ^ (sh + 7) ≤ v / 128 * 2 ^ (sh + 7) := Nat.mul_le_mul_right _ hq
        omega
      rw [e1, Nat.shiftLeft_eq, Nat.mod_eq_of_lt (by omega), or_high hacc,
        ih (v / 128) (by omega) hsh7 ?_ (by omega)]
      · rw [hsplit]; congr 1; omega
      · have : v % 128 * 2 ^ sh ≤ 127 * 2 ^ sh := Nat.mul_le_mul_right _ (by omega)
        rw [Nat.pow_add]; omega

theorem getVar_put {v : Nat} {rest : List Nat} (h : v < 2 ^ 32) :
    getVar (putVar v ++ rest) = .ok v rest 0 := by
  have := getVar_loop (v := v) (acc := 0) (sh := 0) (rest := rest) (by omega) (by simp) (by simpa using h)
  simpa [getVar] using this

theorem putVar_pos (v : Nat) : 0 < (putVar v).length := by
  by_cases h : v < 128
  · rw [putVar_lt h]; simp
  · rw [putVar_ge h]; simp

theorem putVar_len {v k : Nat} (h : v < 128 ^ (k + 1)) : (putVar v).length ≤ k + 1 := by
  induction k generalizing v with
  | zero => rw [putVar_lt (by simpa using h)]; simp
  | succ k ih =>
    by_cases h1 : v < 128
    · rw [putVar_lt h1]; simp
    · rw [putVar_ge h1]
      have := ih (v := v / 128) (by
        rw [Nat.div_lt_iff_lt_mul (by omega)]; rw [Nat.pow_succ] at h; exact h)
      simp; omega

theorem putVar_byte {v b : Nat} (h : b ∈ putVar v) : b < 256 := by
  induction v using Nat.strongRecOn with
  | _ v ih =>
    by_cases h1 : v < 128
    · rw [putVar_lt h1] at h; simp at h; omega
    · rw [putVar_ge h1] at h
      rcases List.mem_cons.mp h with h | h
      · omega
      · exact ih (v / 128) (by omega) h

theorem getVar_range {acc sh : Nat} {bs : List Nat} {v : Nat} {r : List Nat} {a : Nat} (hacc : acc < 2 ^ 32)
    (h : getVarLoop acc sh bs = .ok v r a) : v < 2 ^ 32 ∧ a = 0 := by
  induction bs generalizing acc sh with
  | nil => simp [getVarLoop] at h
  | cons b bs ih =>
    simp only [getVarLoop] at h
    have hlt : acc ||| ((b % 128) <<< sh) % 2 ^ 32 < 2 ^ 32 :=
      Nat.or_lt_two_pow hacc (Nat.mod_lt _ (by norm_num))
    split at h
    · cases h
    split at h
    · exact ih hlt h
    · injection h with h1 h2 h3
      exact ⟨h1 ▸ hlt, h3.symm⟩

/-! ## Zig-zag -/

theorem xor_ones {x : Nat} (h : x < 2 ^ 32) : x ^^^ (2 ^ 32 - 1) = 2 ^ 32 - 1 - x := by
  have h1 := congrArg BitVec.toNat (BitVec.xor_allOnes (x := BitVec.ofNat 32 x))
  rw [BitVec.toNat_xor, BitVec.toNat_not, BitVec.toNat_allOnes, BitVec.toNat_ofNat,
    Nat.mod_eq_of_lt h] at h1
  exact h1

theorem asU32_nonneg {v : Int} (h0 : 0 ≤ v) (h : v < 2 ^ 32) : asU32 v = v.toNat := by
  unfold asU32
  rw [Int.emod_eq_of_lt h0 h]

theorem asU32_neg {v : Int} (h0 : v < 0) (h : -2 ^ 32 ≤ v) : asU32 v = (v + 2 ^ 32).toNat := by
  unfold asU32
  congr 1
  rw [← Int.add_emod_right, Int.emod_eq_of_lt (by omega) (by omega)]

theorem zig_eq {v : Int} (h1 : -2 ^ 31 ≤ v) (h2 : v < 2 ^ 31) :
    asU32 (2 * v) ^^^ asU32 (if v < 0 then -1 else 0) = (if v < 0 then -2 * v - 1 else 2 * v).toNat := by
  split
  · rename_i h
    rw [asU32_neg (by omega) (by omega), asU32_neg (v := -1) (by omega) (by norm_num)]
    have e : ((-1 : Int) + 2 ^ 32).toNat = 2 ^ 32 - 1 := by rfl
    rw [e, xor_ones (by omega)]
    omega
  · rename_i h
    rw [asU32_nonneg (by omega) (by omega), asU32_nonneg (v := 0) (by omega) (by omega)]
    simp

theorem zig_lt {v : Int} (h1 : -2 ^ 31 ≤ v) (h2 : v < 2 ^ 31) :
    asU32 (2 * v) ^^^ asU32 (if v < 0 then -1 else 0) < 2 ^ 32 := by
  rw [zig_eq h1 h2]; split <;> omega

theorem unzig_zig {v : Int} (h1 : -2 ^ 31 ≤ v) (h2 : v < 2 ^ 31) :
    unzig (asU32 (2 * v) ^^^ asU32 (if v < 0 then -1 else 0)) = v := by
  rw [zig_eq h1 h2]
  unfold unzig
  split
  · rename_i h
    have e1 : (-2 * v - 1).toNat % 2 = 1 := by omega
    rw [e1, show 2 ^ 32 - 1 - 1 + 1 = 2 ^ 32 - 1 from by norm_num, xor_ones (by omega)]
    unfold asI32
    split <;> omega
  · rename_i h
    have e1 : (2 * v).toNat % 2 = 0 := by omega
    rw [e1, show 2 ^ 32 - 1 - 0 + 1 = 2 ^ 32 from by norm_num]
    unfold asI32
    have e2 : ((2 * v).toNat / 2 ^^^ 2 ^ 32) % 2 ^ 32 = (2 * v).toNat / 2 := by
      rw [Nat.xor_mod_two_pow, Nat.mod_self, Nat.xor_zero]
      exact Nat.mod_eq_of_lt (by omega)
    rw [e2]
    split <;> omega

theorem getSVar_put {v : Int} {rest : List Nat} (h1 : -2 ^ 31 ≤ v) (h2 : v < 2 ^ 31) :
    getSVar (putSVar v ++ rest) = .ok v rest 0 := by
  unfold getSVar putSVar
  rw [getVar_put (zig_lt h1 h2)]
  simp only [unzig_zig h1 h2]

/-! ## Fixed width -/

theorem putFixed_len (n v : Nat) : (putFixed n v).length = n := by
  induction n generalizing v with
  | zero => rfl
  | succ n ih => simp [putFixed, ih]

theorem fromBytes_put {n v : Nat} (h : v < 256 ^ n) : fromBytes (putFixed n v) = v := by
  induction n generalizing v with
  | zero => simp at h; subst h; rfl
  | succ n ih =>
    unfold putFixed fromBytes
    rw [ih (by rw [Nat.div_lt_iff_lt_mul (by omega)]; rw [Nat.pow_succ] at h; exact h)]
    omega

theorem take_append {n : Nat} {bs rest : List Nat} (h : bs.length = n) : take n (bs ++ rest) = .ok bs rest 0 := by
  unfold take
  subst h
  rw [if_neg (by simp)]
  simp

/-! ## Round trip -/

theorem bind_eq {r : Res α} {f : α → List Nat → Res β} {v : α} {rest : List Nat} {a : Nat} {w : β}
    {rest' : List Nat} {b : Nat} (h1 : r = .ok v rest a) (h2 : f v rest = .ok w rest' b) :
    r.bind f = .ok w rest' (max a b) := by
  subst h1
  simp only [Res.bind, h2]

theorem asked_eq {r : Res α} {v : α} {rest : List Nat} {a n : Nat} (h : r = .ok v rest a) :
    r.asked n = .ok v rest (max n a) := by
  subst h; rfl

theorem readN_pack {t : Ty} {l : List t.Val} {rest : List Nat}
    (ih : ∀ x ∈ l, ∀ rest, unpack t (pack t x ++ rest) = .ok x rest (largest t x)) :
    readN (unpack t) l.length ((l.map (pack t)).flatten ++ rest) =
      .ok l rest ((l.map (largest t)).foldr max 0) := by
  induction l with
  | nil => rfl
  | cons x xs ihl =>
    simp only [List.length_cons, readN, List.map_cons, List.flatten_cons, List.append_assoc]
    have h2 := bind_eq (f := fun vs r' => Res.ok (x :: vs) r' 0) (ihl (fun y hy => ih y (by simp [hy]))) rfl
    have h3 := bind_eq (f := fun v r => (readN (unpack t) xs.length r).bind fun vs r' => Res.ok (v :: vs) r' 0)
      (ih x (by simp) ((xs.map (pack t)).flatten ++ rest)) h2
    simp only [Nat.max_zero] at h3
    exact h3

theorem unpack_pack (t : Ty) : ∀ (v : t.Val) (rest : List Nat), Good t v →
    unpack t (pack t v ++ rest) = .ok v rest (largest t v) := by
  induction t with
  | fixed n =>
    intro v rest h
    have := bind_eq (f := fun b r => Res.ok (fromBytes b) r 0) (take_append (rest := rest) (putFixed_len n v)) rfl
    rw [fromBytes_put h] at this
    exact this
  | bool =>
    intro v rest h
    cases v <;> rfl
  | varu => intro v rest h; exact getVar_put h
  | vari => intro v rest h; exact getSVar_put h.1 h.2
  | str =>
    intro v rest h
    have h1 := getVar_put (rest := (show List Nat from v) ++ rest) h
    rw [← List.append_assoc] at h1
    have h2 := bind_eq (f := fun n r => (take n r).asked n) h1 (asked_eq (take_append rfl))
    simp only [Nat.zero_max, Nat.max_zero] at h2
    exact h2
  | vec t ih =>
    intro v rest h
    have h0 := readN_pack (l := v) (rest := rest) (fun x hx r => ih x r (h.2 x hx))
    have h1 := getVar_put (rest := (List.map (pack t) v).flatten ++ rest) h.1
    rw [← List.append_assoc] at h1
    have h2 := bind_eq (f := fun n r => (readN (unpack t) n r).asked n) h1 (asked_eq h0)
    simp only [Nat.zero_max] at h2
    exact h2
  | opt t ih =>
    intro v rest h
    cases v with
    | none => rfl
    | some x =>
      have h1 := take_append (n := 1) (bs := [1]) (rest := pack t x ++ rest) rfl
      have h2 := bind_eq (f := fun v r' => Res.ok (some v) r' 0) (ih x rest (h x rfl)) rfl
      have h3 := bind_eq (f := fun b r => if fromBytes b ≠ 0 then
        (unpack t r).bind fun v r' => Res.ok (some v) r' 0 else .ok none r 0) h1 h2
      simp only [Nat.zero_max, Nat.max_zero] at h3
      exact h3
  | pair a b iha ihb =>
    intro v rest h
    obtain ⟨x, y⟩ := v
    have h1 := iha x (pack b y ++ rest) h.1
    rw [← List.append_assoc] at h1
    have h2 := bind_eq (f := fun y r' => Res.ok (x, y) r' 0) (ihb y rest h.2) rfl
    have h3 := bind_eq (f := fun x r => (unpack b r).bind fun y r' => Res.ok (x, y) r' 0) h1 h2
    simp only [Nat.max_zero] at h3
    exact h3
  | unit => intro v rest h; rfl

/-! ## Reading more bytes does not change what was read -/

/-- Read results agree when bytes are added at the end. -/
def Mono (f : List Nat → Res α) : Prop :=
  ∀ bs x, (∀ v r a, f bs = .ok v r a → f (bs ++ x) = .ok v (r ++ x) a) ∧ (f bs = .undef → f (bs ++ x) = .undef)

theorem mono_take (n : Nat) : Mono (take n) := by
  intro bs x
  unfold take
  constructor
  · intro v r a h
    split at h
    · cases h
    · injection h with h1 h2 h3
      subst h1 h2 h3
      rename_i hn
      rw [if_neg (by simp; omega), List.take_append_of_le_length (by omega),
        List.drop_append_of_le_length (by omega)]
  · intro h
    split at h <;> cases h

theorem mono_bind {f : List Nat → Res α} {g : α → List Nat → Res β} (hf : Mono f) (hg : ∀ v, Mono (g v)) :
    Mono (fun bs => (f bs).bind g) := by
  intro bs x
  dsimp only
  cases hfb : f bs with
  | ok v r a =>
    rw [(hf bs x).1 v r a hfb]
    simp only [Res.bind]
    cases hgv : g v r with
    | ok w r' b =>
      rw [(hg v r x).1 w r' b hgv]
      constructor
      · intro w' r'' a' h
        injection h with h1 h2 h3
        subst h1 h2 h3; rfl
      · intro h; cases h
    | stop b => constructor <;> (intros; rename_i h; cases h)
    | undef =>
      rw [(hg v r x).2 hgv]
      constructor
      · intro _ _ _ h; cases h
      · intro _; rfl
  | stop a => simp only [Res.bind]; constructor <;> (intros; rename_i h; cases h)
  | undef =>
    rw [(hf bs x).2 hfb]
    simp only [Res.bind]
    constructor
    · intro _ _ _ h; cases h
    · intro _; trivial

theorem mono_ok (v : α) (a : Nat) : Mono (fun bs => Res.ok v bs a) := by
  intro bs x
  constructor
  · intro v' r a' h
    injection h with h1 h2 h3
    subst h1 h2 h3; rfl
  · intro h; cases h

theorem mono_asked {f : List Nat → Res α} (n : Nat) (hf : Mono f) : Mono (fun bs => (f bs).asked n) := by
  intro bs x
  dsimp only
  cases hfb : f bs with
  | ok v r a =>
    rw [(hf bs x).1 v r a hfb]
    simp only [Res.asked]
    constructor
    · intro v' r' a' h
      injection h with h1 h2 h3
      subst h1 h2 h3; rfl
    · intro h; cases h
  | stop a => simp only [Res.asked]; constructor <;> (intros; rename_i h; cases h)
  | undef =>
    rw [(hf bs x).2 hfb]
    simp only [Res.asked]
    constructor
    · intro _ _ _ h; cases h
    · intro _; trivial

theorem mono_varLoop (acc sh : Nat) : Mono (getVarLoop acc sh) := by
  intro bs x
  induction bs generalizing acc sh with
  | nil => simp [getVarLoop]
  | cons b bs ih =>
    simp only [List.cons_append, getVarLoop]
    split
    · simp
    split
    · exact ih _ _
    · constructor
      · intro v r a h
        injection h with h1 h2 h3
        subst h1 h2 h3; rfl
      · intro h; cases h

theorem mono_sVar : Mono getSVar := by
  intro bs x
  unfold getSVar
  cases h : getVar bs with
  | ok v r a =>
    rw [show getVar (bs ++ x) = .ok v (r ++ x) a from (mono_varLoop 0 0 bs x).1 v r a h]
    dsimp only
    constructor
    · intro v' r' a' h
      injection h with h1 h2 h3
      subst h1 h2 h3; rfl
    · intro h; cases h
  | stop a => constructor <;> (intros; rename_i h; cases h)
  | undef =>
    rw [show getVar (bs ++ x) = .undef from (mono_varLoop 0 0 bs x).2 h]
    constructor
    · intro _ _ _ h; cases h
    · intro _; rfl

theorem mono_readN {f : List Nat → Res α} (hf : Mono f) (n : Nat) : Mono (readN f n) := by
  induction n with
  | zero => exact mono_ok [] 0
  | succ n ih =>
    have : readN f (n + 1) = fun bs => (f bs).bind fun v r => (readN f n r).bind fun vs r' => .ok (v :: vs) r' 0 := by
      funext bs; rw [readN]
    rw [this]
    exact mono_bind hf fun v => mono_bind ih fun vs => mono_ok _ 0

theorem mono_ite {f g : List Nat → Res α} (c : Prop) [Decidable c] (hf : Mono f) (hg : Mono g) :
    Mono (fun bs => if c then f bs else g bs) := by
  by_cases h : c
  · simp only [if_pos h]; exact hf
  · simp only [if_neg h]; exact hg

theorem mono_unpack (t : Ty) : Mono (unpack t) := by
  induction t with
  | fixed n => exact mono_bind (mono_take n) fun b => mono_ok _ 0
  | bool => exact mono_bind (mono_take 1) fun b => mono_ok _ 0
  | varu => exact mono_varLoop 0 0
  | vari => exact mono_sVar
  | str => exact mono_bind (mono_varLoop 0 0) fun n => mono_asked n (mono_take n)
  | vec t ih => exact mono_bind (mono_varLoop 0 0) fun n => mono_asked n (mono_readN ih n)
  | opt t ih =>
    exact mono_bind (mono_take 1) fun b =>
      mono_ite _ (mono_bind ih fun v => mono_ok _ 0) (mono_ok _ 0)
  | pair a b iha ihb => exact mono_bind iha fun x => mono_bind ihb fun y => mono_ok _ 0
  | unit => exact mono_ok _ 0

/-! ## Sizes -/

theorem solid_pos {t : Ty} (h : Solid t) (v : t.Val) : 0 < (pack t v).length := by
  induction t with
  | fixed n => exact (putFixed_len n v).symm ▸ h
  | bool => exact Nat.one_pos
  | varu => exact putVar_pos _
  | vari => exact putVar_pos _
  | str =>
    show 0 < (putVar (List.length v) ++ _).length
    rw [List.length_append]
    have := putVar_pos (List.length v); omega
  | vec t ih =>
    show 0 < (putVar (List.length v) ++ _).length
    rw [List.length_append]
    have := putVar_pos (List.length v); omega
  | opt t ih => cases v <;> simp [pack]
  | pair a b iha ihb =>
    show 0 < (pack a v.1 ++ pack b v.2).length
    rw [List.length_append]
    have := iha h.1 v.1; omega
  | unit => exact h.elim

theorem largest_le {t : Ty} (h : Solid t) (v : t.Val) : largest t v ≤ (pack t v).length := by
  induction t with
  | fixed n => exact Nat.zero_le _
  | bool => exact Nat.zero_le _
  | varu => exact Nat.zero_le _
  | vari => exact Nat.zero_le _
  | str =>
    show List.length v ≤ (putVar (List.length v) ++ (show List Nat from v)).length
    rw [List.length_append]
    exact Nat.le_add_left _ _
  | vec t ih =>
    show max (List.length v) _ ≤ (putVar (List.length v) ++ (List.map (pack t) v).flatten).length
    rw [List.length_append]
    have key : ∀ l : List t.Val, l.length ≤ ((l.map (pack t)).flatten).length ∧
        (l.map (largest t)).foldr max 0 ≤ ((l.map (pack t)).flatten).length := by
      intro l
      induction l with
      | nil => simp
      | cons x xs ihx =>
        have h1 := solid_pos (t := t) h x
        have h2 := ih h x
        simp only [List.map_cons, List.flatten_cons, List.length_append, List.length_cons, List.foldr_cons]
        omega
    have := key v
    omega
  | opt t ih =>
    cases v with
    | none => exact Nat.zero_le _
    | some x =>
      have := ih h x
      show largest t x ≤ (1 :: pack t x).length
      simp; omega
  | pair a b iha ihb =>
    show max (largest a v.1) (largest b v.2) ≤ (pack a v.1 ++ pack b v.2).length
    rw [List.length_append]
    have := iha h.1 v.1
    have := ihb h.2 v.2
    omega
  | unit => exact h.elim

end Verif.Abi
