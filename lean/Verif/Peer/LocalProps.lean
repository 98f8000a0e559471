import Verif.Peer.Local
import Mathlib.Data.List.Induction

namespace Verif.Peer

theorem reach_nonneg (ip : List Nat) (peer : Option (List Nat)) : 0 ≤ reach ip peer := by
  unfold reach
  simp only
  repeat' split
  all_goals omega

/-- What the choice has seen -/
structure Chosen (peer : Option (List Nat)) (m : List Own) (b : Best) : Prop where
  some_ : ∀ o, b.own = some o → o ∈ m ∧ b.reach = reach o.ip peer ∧ b.score = o.score
  none_ : b.own = none → m = [] ∧ b.reach = -1 ∧ b.score = -1
  best : ∀ o ∈ m, reach o.ip peer < b.reach ∨ (reach o.ip peer = b.reach ∧ o.score ≤ b.score)

theorem chosen (peer : Option (List Nat)) (m : List Own) : Chosen peer m (m.foldl (better peer) {}) := by
  induction m using List.reverseRecOn with
  | nil => exact ⟨fun o h => (by cases h), fun _ => ⟨rfl, rfl, rfl⟩, fun o h => (by cases h)⟩
  | append_singleton m o ih =>
    rw [List.foldl_append, List.foldl_cons, List.foldl_nil]
    generalize m.foldl (better peer) {} = b at ih
    have rn := reach_nonneg o.ip peer
    unfold better
    by_cases h : b.reach < reach o.ip peer ∨ (reach o.ip peer = b.reach ∧ b.score < o.score)
    · rw [if_pos h]
      refine ⟨?_, fun k => (by cases k), ?_⟩
      · intro o' k; injection k with k; subst k; exact ⟨by simp, rfl, rfl⟩
      · intro x hx
        rcases List.mem_append.mp hx with hx | hx
        · have := ih.best x hx; simp only; omega
        · rw [List.mem_singleton.mp hx]; right; exact ⟨rfl, Int.le_refl _⟩
    · rw [if_neg h]
      refine ⟨?_, ?_, ?_⟩
      · intro o' k
        obtain ⟨a, b', c⟩ := ih.some_ o' k
        exact ⟨by simp [a], b', c⟩
      · intro k
        obtain ⟨-, b', c⟩ := ih.none_ k
        exfalso
        apply h
        left
        omega
      · intro x hx
        rcases List.mem_append.mp hx with hx | hx
        · exact ih.best x hx
        · rw [List.mem_singleton.mp hx]; omega

/-- The address told to a peer is one of the own addresses and none is more reachable, or as reachable and better known. -/
theorem local_best {cfg : Config} {m : List Own} {peer : Option (List Nat)} {o : Own} (h : getLocal cfg m peer = some o) :
    o ∈ m ∧ ∀ x ∈ m, reach x.ip peer < reach o.ip peer ∨ (reach x.ip peer = reach o.ip peer ∧ x.score ≤ o.score) := by
  have c := chosen peer m
  unfold getLocal at h
  split at h
  · cases h
  · simp only at h
    split at h
    · obtain ⟨k1, k2, k3⟩ := c.some_ o h
      refine ⟨k1, fun x hx => ?_⟩
      have := c.best x hx
      omega
    · cases h

/-- What every own address has gone through -/
def Sound (cfg : Config) (ops : List LocalOp) (o : Own) : Prop :=
  Ip.isRoutable o.ip = true ∧ cfg.limited (Ip.getNetwork o.ip) = false ∧
    ∃ port score, LocalOp.add o.ip port score ∈ ops ∧ (cfg.discover = true ∨ 5 ≤ score)

theorem Sound.mono {cfg : Config} {ops : List LocalOp} {o : Own} (h : Sound cfg ops o) (x : LocalOp) : Sound cfg (ops ++ [x]) o := by
  obtain ⟨a, b, p, s, k, l⟩ := h
  exact ⟨a, b, p, s, by simp [k], l⟩

theorem run_sound (cfg : Config) (ops : List LocalOp) : ∀ o ∈ runLocal cfg ops, Sound cfg ops o := by
  induction ops using List.reverseRecOn with
  | nil => intro o h; cases h
  | append_singleton ops x ih =>
    intro o ho
    rw [runLocal, List.foldl_append, List.foldl_cons, List.foldl_nil] at ho
    change o ∈ stepLocal cfg (runLocal cfg ops) x at ho
    cases x with
    | seen ip =>
      simp only [stepLocal, seenLocal, List.mem_map] at ho
      obtain ⟨p, hp, rfl⟩ := ho
      have := (ih p hp).mono (.seen ip)
      split
      · exact this
      · exact this
    | add ip port score =>
      simp only [stepLocal, addLocal] at ho
      split at ho
      · exact (ih o ho).mono _
      split at ho
      · exact (ih o ho).mono _
      split at ho
      · exact (ih o ho).mono _
      split at ho
      · simp only [List.mem_map] at ho
        obtain ⟨p, hp, rfl⟩ := ho
        have := (ih p hp).mono (.add ip port score)
        split
        · exact this
        · exact this
      · rcases List.mem_append.mp ho with ho | ho
        · exact (ih o ho).mono _
        · rename_i h1 h2 h3 h4 _
          rw [List.mem_singleton.mp ho]
          refine ⟨by simpa using h1, by simpa using h3, port, score, by simp, ?_⟩
          simp only [Bool.and_eq_true, Bool.not_eq_true', decide_eq_true_eq, not_and, Int.not_lt] at h2
          by_cases d : cfg.discover = true
          · exact Or.inl d
          · exact Or.inr (h2 (by simpa using d))

/-- Only routable addresses outside the forbidden networks are told, and without discovery only those the operator gave. -/
theorem local_sound {cfg : Config} {ops : List LocalOp} {peer : Option (List Nat)} {o : Own} (h : getLocal cfg (runLocal cfg ops) peer = some o) :
    cfg.listen = true ∧ Sound cfg ops o := by
  refine ⟨?_, run_sound cfg ops o (local_best h).1⟩
  by_contra c
  unfold getLocal at h
  rw [if_pos (by simpa using c)] at h
  cases h

/-- An address is told whenever there is one with a score. -/
theorem local_found {cfg : Config} {m : List Own} {peer : Option (List Nat)} (hl : cfg.listen = true) (hs : ∀ o ∈ m, 0 ≤ o.score) (hm : m ≠ []) :
    ∃ o, getLocal cfg m peer = some o := by
  have c := chosen peer m
  unfold getLocal
  rw [if_neg (by simp [hl])]
  simp only
  cases k : (m.foldl (better peer) {}).own with
  | none => exact absurd (c.none_ k).1 hm
  | some o =>
    obtain ⟨k1, -, k3⟩ := c.some_ o k
    rw [if_pos (by rw [k3]; exact hs o k1)]
    exact ⟨o, rfl⟩

theorem tor_ext {ip : List Nat} (h : Ip.isTor ip = true) (hr : Ip.isRoutable ip = true) : extNetwork (some ip) = 3 := by
  have h' := h
  simp only [Ip.isTor, beq_iff_eq, Ip.pchOnionCat] at h
  cases ip with
  | nil => simp at h
  | cons a t =>
    simp only [List.take_succ_cons, List.cons.injEq] at h
    obtain ⟨rfl, -⟩ := h
    have r : Ip.isRFC4380 (253 :: t) = false := by simp [Ip.isRFC4380, Ip.getByte]
    have v : Ip.isIPv4 (253 :: t) = false := by simp [Ip.isIPv4, Ip.pchIPv4]
    simp [extNetwork, r, Ip.getNetwork, hr, v, h']

theorem other_ext {ip : List Nat} (h : Ip.isTor ip = false) (hr : Ip.isRoutable ip = true) :
    extNetwork (some ip) = 1 ∨ extNetwork (some ip) = 2 ∨ extNetwork (some ip) = 5 := by
  simp only [extNetwork, Ip.getNetwork, hr, h]
  by_cases a : Ip.isRFC4380 ip = true
  · simp [a]
  · by_cases b : Ip.isIPv4 ip = true
    · simp [a, b]
    · simp [a, b]

theorem reach_eq {ip : List Nat} {peer : Option (List Nat)} (hr : Ip.isRoutable ip = true) : reach ip peer =
    if extNetwork peer = 1 then (if extNetwork (some ip) = 1 then 4 else 1)
    else if extNetwork peer = 2 then (if extNetwork (some ip) = 5 then 2 else if extNetwork (some ip) = 1 then 4
      else if extNetwork (some ip) = 2 then (if Ip.isRFC3964 ip || Ip.isRFC6052 ip || Ip.isRFC6145 ip then 3 else 5) else 1)
    else if extNetwork peer = 3 then (if extNetwork (some ip) = 1 then 4 else if extNetwork (some ip) = 3 then 6 else 1)
    else if extNetwork peer = 5 then (if extNetwork (some ip) = 5 then 2 else if extNetwork (some ip) = 2 then 3 else if extNetwork (some ip) = 1 then 4 else 1)
    else (if extNetwork (some ip) = 5 then 2 else if extNetwork (some ip) = 2 then 3 else if extNetwork (some ip) = 1 then 4
      else if extNetwork (some ip) = 3 then 6 else 1) := by
  unfold reach
  rw [if_neg (by simp [hr])]

/-- IPv4, which is neither Tor nor Teredo -/
theorem ipv4_ext {ip : List Nat} (h : Ip.isIPv4 ip = true) (hr : Ip.isRoutable ip = true) : extNetwork (some ip) = 1 := by
  have h' := h
  simp only [Ip.isIPv4, beq_iff_eq, Ip.pchIPv4] at h
  cases ip with
  | nil => simp at h
  | cons a t =>
    simp only [List.take_succ_cons, List.cons.injEq] at h
    obtain ⟨rfl, -⟩ := h
    have r : Ip.isRFC4380 (0 :: t) = false := by simp [Ip.isRFC4380, Ip.getByte]
    simp [extNetwork, r, Ip.getNetwork, hr, h']

/-- A peer on IPv4 is not told a Tor address, nor an IPv6 address, if there is an IPv4 address. -/
theorem local_ipv4 {cfg : Config} {ops : List LocalOp} {peer : List Nat} {o x : Own} (hp : Ip.isIPv4 peer = true) (hr : Ip.isRoutable peer = true)
    (hx : x ∈ runLocal cfg ops) (hx4 : Ip.isIPv4 x.ip = true) (h : getLocal cfg (runLocal cfg ops) (some peer) = some o) :
    Ip.isIPv4 o.ip = true := by
  have so := (local_sound h).2.1
  have b := (local_best h).2 x hx
  rw [reach_eq (run_sound cfg ops x hx).1, reach_eq so, if_pos (ipv4_ext hp hr), if_pos (ipv4_ext hp hr),
    if_pos (ipv4_ext hx4 (run_sound cfg ops x hx).1)] at b
  by_cases e : extNetwork (some o.ip) = 1
  · by_contra c
    have c : Ip.isIPv4 o.ip = false := by simpa using c
    simp only [extNetwork, Ip.getNetwork, so, c] at e
    revert e
    cases Ip.isRFC4380 o.ip <;> cases Ip.isTor o.ip <;> simp
  · rw [if_neg e] at b
    omega

/-- A peer on IPv6 is told a Tor address only if there are no others. -/
theorem local_tor_hidden {cfg : Config} {ops : List LocalOp} {peer : List Nat} {o x : Own} (hp : Ip.isIPv6 peer = true) (hr : Ip.isRoutable peer = true)
    (hx : x ∈ runLocal cfg ops) (hx1 : Ip.isTor x.ip = false) (h : getLocal cfg (runLocal cfg ops) (some peer) = some o) :
    Ip.isTor o.ip = false := by
  by_contra c
  have c : Ip.isTor o.ip = true := by simpa using c
  have so := (local_sound h).2.1
  have e := tor_ext c so
  have b := (local_best h).2 x hx
  have sx := (run_sound cfg ops x hx).1
  simp only [Ip.isIPv6, Bool.and_eq_true, Bool.not_eq_true'] at hp
  have p : extNetwork (some peer) = 2 ∨ extNetwork (some peer) = 5 := by
    simp only [extNetwork, Ip.getNetwork, hr, hp.1, hp.2]
    by_cases a : Ip.isRFC4380 peer = true
    · simp [a]
    · simp [a]
  rw [reach_eq sx, reach_eq so, e] at b
  rcases p with p | p <;> rcases other_ext hx1 sx with q | q | q <;> rw [p, q] at b <;> simp at b
  split at b <;> simp at b

/-- A peer on Tor is told a Tor address if there is one. -/
theorem local_tor_told {cfg : Config} {ops : List LocalOp} {peer : List Nat} {o x : Own} (hp : Ip.isTor peer = true) (hr : Ip.isRoutable peer = true)
    (hx : x ∈ runLocal cfg ops) (hx1 : Ip.isTor x.ip = true) (h : getLocal cfg (runLocal cfg ops) (some peer) = some o) :
    Ip.isTor o.ip = true := by
  by_contra c
  have c : Ip.isTor o.ip = false := by simpa using c
  have so := (local_sound h).2.1
  have b := (local_best h).2 x hx
  have sx := (run_sound cfg ops x hx).1
  rw [reach_eq sx, reach_eq so, tor_ext hx1 sx, tor_ext hp hr] at b
  rcases other_ext c so with q | q | q <;> rw [q] at b <;> simp at b

/-! The hypotheses can be met: a node with an IPv4 address, an IPv6 address and a Tor address. -/

def v4 (d : Nat) : List Nat := Ip.pchIPv4 ++ [8, 8, 8, d]
def v6 (d : Nat) : List Nat := [0x2a, 0, 0, 0, 0, 0, 0, 0, 0, 0, 0, 0, 0, 0, 0, d]
def tor (d : Nat) : List Nat := Ip.pchOnionCat ++ [1, 2, 3, 4, 5, 6, 7, 8, 9, d]
def open_ : Config := ⟨true, fun _ => false, true⟩
def three : List LocalOp := [.add (tor 1) 80 5, .add (v4 1) 81 1, .add (v6 1) 82 1, .seen (v4 1), .add (v6 1) 83 2]

example : (getLocal open_ (runLocal open_ three) (some (v4 9))).map (·.ip) = some (v4 1) ∧
    getLocal open_ (runLocal open_ three) (some (v6 9)) = some ⟨v6 1, 3, 83⟩ ∧
    (getLocal open_ (runLocal open_ three) (some (tor 9))).map (·.ip) = some (tor 1) := by decide +kernel
example : Ip.isIPv4 (v4 9) = true ∧ Ip.isRoutable (v4 9) = true ∧ Ip.isIPv6 (v6 9) = true ∧ Ip.isRoutable (v6 9) = true ∧ Ip.isTor (tor 9) = true ∧
    Ip.isRoutable (tor 9) = true := by decide +kernel

/-- A peer whose address is not routable, and a peer on IPv4 when only IPv6 addresses are there besides, is told the Tor address. -/
theorem local_tor_violated :
    (getLocal open_ (runLocal open_ three) (some (Ip.pchIPv4 ++ [192, 168, 0, 1]))).map (·.ip) = some (tor 1) ∧
    (getLocal open_ (runLocal open_ [.add (tor 1) 80 5, .add (v6 1) 82 1]) (some (v4 9))).map (·.ip) = some (tor 1) := by decide +kernel

end Verif.Peer
