import Verif.Wallet.Lemmas
import Mathlib.Logic.Equiv.List

/-!
# Properties of the wallet (C136-C138)

`Run C pass s`: the wallet `s` with passphrase `pass` is reached from a new wallet by commands, restarts and crashes.
-/
namespace Verif.Wallet

variable {C : Crypto}

/-- Wallets that can be reached, with the passphrase last set (any, if none was set) -/
inductive Run (C : Crypto) : Bytes → St → Prop
  | init (pass fresh : Bytes) : fresh.length = 32 → Run C pass (init C fresh)
  | step {pass : Bytes} {s : St} (fresh : Bytes) (op : Op) : Run C pass s → Sane C s op →
      Run C (newPass pass op (step C fresh s op).2) (step C fresh s op).1

theorem run_inv (L : Laws C) {pass : Bytes} {s : St} (h : Run C pass s) : Inv C pass s := by
  induction h with
  | init pass fresh hf => exact init_inv C pass fresh hf
  | step fresh op _ hs ih => exact step_inv L ih hs

/-- A program for which the assumptions hold -/
def toy : Crypto where
  pub x := Encodable.encode x
  kdf p _ _ := p
  enc k _ m := k.length :: (k ++ m)
  dec k _ c := match c with
    | [] => none
    | n :: c => if n = k.length ∧ c.take n = k then some (c.drop n) else none

theorem toy_laws : Laws toy := by
  refine ⟨?_, ?_, ?_⟩
  · intro k iv m
    simp [toy]
  · intro k k' iv m h
    simp only [toy] at h
    split at h
    · rename_i hc
      obtain ⟨h1, h2⟩ := hc
      rw [List.take_left'] at h2
      · exact h2.symm
      · rfl
    · cases h
  · intro a b h
    exact Encodable.encode_injective h

/-! ## C136: no key is lost -/

theorem has_ks {pass : Bytes} {d : Disk} (h : d.ck ≠ []) (ks : List (Nat × Combi × Bool)) {x : Bytes} (hx : Has C pass d x) : Has C pass { d with ks := ks } x :=
  has_of_good (d := d) (d' := { d with ks := ks }) rfl (fun h0 => absurd h0 h)
    (fun _ i k g => ⟨i, k, g.some, g.ver, g.len, g.mas, g.salt, g.rounds, g.ct, g.keys⟩) hx

theorem has_ck (L : Laws C) {pass m : Bytes} {i : Nat} {k : Master} {d : Disk} (g : Good C pass m i k d) {y : Bytes} (hy : y.length = 32)
    (ks : List (Nat × Combi × Bool)) {x : Bytes} (hx : Has C pass d x ∨ x = y) :
    Has C pass { d with ck := put lt d.ck (C.pub y) (C.enc m (C.pub y) y), ks := ks } x := by
  have g' := good_ck g hy ks
  unfold Has
  rw [if_neg g'.some]
  have h32 : x.length = 32 := by
    rcases hx with hx | rfl
    · unfold Has at hx; rw [if_neg g.some] at hx; exact hx.1
    · exact hy
  refine ⟨h32, m, i, k, g', ?_⟩
  show find (put lt d.ck _ _) _ = _
  rw [find_put]
  split
  · rename_i he
    rw [L.pub_inj _ _ he]
  · rename_i hne
    rcases hx with hx | rfl
    · unfold Has at hx; rw [if_neg g.some] at hx
      obtain ⟨_, m', i', k', g2, hf⟩ := hx
      rw [good_unique L g g2]; exact hf
    · exact absurd rfl hne

theorem writeCrypted_form (d : Disk) (p : Nat) (ct : Bytes) : ∃ ks, writeCrypted d p ct = { d with ck := put lt d.ck p ct, ks := ks } := by
  unfold writeCrypted
  simp only
  split
  · exact ⟨d.ks, rfl⟩
  · split
    · exact ⟨_, rfl⟩
    · exact ⟨d.ks, rfl⟩

/-- The record put by `AddKey` -/
theorem has_put (L : Laws C) {pass : Bytes} {d : Disk} {id : Nat} {c : Combi} (v : Bool) (hb : badId C id c = false) {x : Bytes}
    (hn : d.ck = [] → id = C.pub x → c.main ≠ none) (hx : Has C pass d x) : Has C pass { d with ks := put lt d.ks id (c, v) } x := by
  by_cases h0 : d.ck = []
  · unfold Has at hx ⊢
    rw [if_pos h0] at hx
    rw [if_pos (show ({ d with ks := put lt d.ks id (c, v) } : Disk).ck = [] from h0)]
    obtain ⟨c', f, h1, h2⟩ := hx
    show ∃ c_1 f, find (put lt d.ks id (c, v)) (C.pub x) = some (c_1, f) ∧ _
    rw [find_put]
    split
    · rename_i he
      cases hm : c.main with
      | none => exact absurd hm (hn h0 he.symm)
      | some y =>
        refine ⟨c, v, rfl, ?_⟩
        rw [hm, L.pub_inj y x ((badId_main hb hm).trans he.symm)]
    · exact ⟨c', f, h1, h2⟩
  · exact has_ks h0 _ hx

theorem unlocked_good {pass : Bytes} {s : St} (h : Inv C pass s) (hc : s.crypto = true) (hk : ¬ locked s = true) : ∃ i k, Good C pass s.master i k s.disk := by
  rcases h.master with h0 | hg
  · exfalso; apply hk; simp [locked, hc, h0]
  · exact hg

theorem has_addKey (L : Laws C) {pass : Bytes} {s : St} (h : Inv C pass s) (id : Nat) {c : Combi} (hl : ∀ x, c.main = some x → x.length = 32) {x : Bytes}
    (hn : s.crypto = false → id = C.pub x → c.main ≠ none) (hx : Has C pass s.disk x) : Has C pass (addKey C s id c).1.disk x := by
  unfold addKey
  by_cases hb : badId C id c = true
  · rw [if_pos hb]; exact hx
  rw [if_neg hb]
  have hb : badId C id c = false := by simpa using hb
  have h1 := has_put L s.ver hb (fun h0 => hn ((plain_iff h).mpr h0)) hx
  simp only
  by_cases hc : s.crypto = true
  · rw [if_neg (by simp [hc])]
    by_cases hk : locked s = true
    · rw [if_pos (by rw [locked_disk]; exact hk)]; exact h1
    · rw [if_neg (by rw [locked_disk]; exact hk)]
      cases hm : c.main with
      | none => exact h1
      | some y =>
        obtain ⟨i, k, g⟩ := unlocked_good h hc hk
        simp only
        rw [encSecret_ok g.len]
        obtain ⟨ks, hw⟩ := writeCrypted_form { s.disk with ks := put lt s.disk.ks id (c, s.ver) } (C.pub y) (C.enc s.master (C.pub y) y)
        simp only
        rw [hw]
        exact has_ck L g (hl y hm) ks (Or.inl hx)
  · have hc' : s.crypto = false := by simpa using hc
    rw [if_pos (by simp [hc'])]
    exact h1

theorem has_added (L : Laws C) {pass : Bytes} {s : St} (h : Inv C pass s) {id : Nat} {c : Combi} {x : Bytes} (hx : c.main = some x) (h32 : x.length = 32)
    (hy : (addKey C s id c).2 = .yes) : Has C pass (addKey C s id c).1.disk x := by
  unfold addKey at hy ⊢
  by_cases hb : badId C id c = true
  · rw [if_pos hb] at hy; cases hy
  rw [if_neg hb] at hy ⊢
  have hb : badId C id c = false := by simpa using hb
  simp only at hy ⊢
  by_cases hc : s.crypto = true
  · rw [if_neg (by simp [hc])] at hy ⊢
    by_cases hk : locked s = true
    · rw [if_pos (by rw [locked_disk]; exact hk)] at hy; cases hy
    · rw [if_neg (by rw [locked_disk]; exact hk)] at hy ⊢
      obtain ⟨i, k, g⟩ := unlocked_good h hc hk
      rw [hx]
      simp only
      rw [encSecret_ok g.len]
      obtain ⟨ks, hw⟩ := writeCrypted_form { s.disk with ks := put lt s.disk.ks id (c, s.ver) } (C.pub x) (C.enc s.master (C.pub x) x)
      simp only
      rw [hw]
      exact has_ck L g h32 ks (Or.inr rfl)
  · have hc' : s.crypto = false := by simpa using hc
    rw [if_pos (by simp [hc'])]
    unfold Has
    rw [if_pos (show s.disk.ck = [] from (plain_iff h).mp hc')]
    refine ⟨c, s.ver, ?_, hx⟩
    show find (put lt s.disk.ks id (c, s.ver)) (C.pub x) = _
    rw [find_put, if_pos (badId_main hb hx)]

theorem has_cut (L : Laws C) {pass : Bytes} {s : St} (h : Inv C pass s) (id : Nat) {c : Combi} (n : Nat) (hl : ∀ x, c.main = some x → x.length = 32) {x : Bytes}
    (hn : s.crypto = false → id = C.pub x → c.main ≠ none) (hx : Has C pass s.disk x) : Has C pass (addCut C s id c n) x := by
  unfold addCut
  by_cases hb : (badId C id c || decide (n = 0)) = true
  · rw [if_pos hb]; exact hx
  rw [if_neg hb]
  have hb : badId C id c = false := by
    cases hh : badId C id c
    · rfl
    · simp [hh] at hb
  have h1 := has_put L s.ver hb (fun h0 => hn ((plain_iff h).mpr h0)) hx
  simp only
  split
  · exact h1
  · rename_i hcond
    cases hm : c.main with
    | none => exact h1
    | some y =>
      simp only
      have hc : s.crypto = true := by
        cases hh : s.crypto
        · simp [hh] at hcond
        · rfl
      have hk : ¬ locked s = true := by
        intro hh
        simp [hh] at hcond
      obtain ⟨i, k, g⟩ := unlocked_good h hc hk
      rw [encSecret_ok g.len]
      exact has_ck L g (hl y hm) _ (Or.inl hx)

/-- The command takes the main key `x` away: the key is removed, or all main keys are dropped, or a key for mining is imported for its address; all
this only in a wallet that is not encrypted. -/
def Loses (C : Crypto) (s : St) (x : Bytes) : Op → Prop
  | .remove y => s.crypto = false ∧ C.pub y = C.pub x
  | .drop _ => s.crypto = false
  | .add id c => s.crypto = false ∧ id = C.pub x ∧ c.main = none
  | .cut id c _ => s.crypto = false ∧ id = C.pub x ∧ c.main = none
  | _ => False

theorem has_addStep (L : Laws C) {pass : Bytes} {s : St} (h : Inv C pass s) (fresh : Bytes) (id : Nat) {c : Combi} (hl : ∀ x, c.main = some x → x.length = 32) {x : Bytes}
    (hn : s.crypto = false → id = C.pub x → c.main ≠ none) (hx : Has C pass s.disk x) : Has C pass (addStep C fresh s id c).1.disk x := by
  have h1 := has_addKey L h id hl hn hx
  obtain ⟨hd, _⟩ := add_inv h id hl
  by_cases hh : (addKey C s id c).2 = .died
  · rw [addStep_died hh, start_ok hd]; exact h1
  · rw [addStep_lives hh]; exact h1

theorem has_step (L : Laws C) {pass : Bytes} {s : St} (h : Inv C pass s) {fresh : Bytes} {op : Op} (hs : Sane C s op) {x : Bytes} (hn : ¬ Loses C s x op)
    (hx : Has C pass s.disk x) : Has C (newPass pass op (step C fresh s op).2) (step C fresh s op).1.disk x := by
  cases op with
  | add id c =>
    simp only [step]
    split
    · exact hx
    · exact has_addStep L h fresh id hs (fun a b d => hn ⟨a, b, d⟩) hx
  | late id c =>
    simp only [step]
    split
    · exact hx
    · rename_i hcp
      have hc : s.crypto = true := by cases hh : s.crypto <;> simp [hh] at hcp ⊢
      have hd : (lock s).disk = s.disk := by rw [lock_crypto hc]
      refine has_addStep L (lock_inv h hc) fresh id hs ?_ (by rw [hd]; exact hx)
      rw [lock_crypto hc]
      intro h0
      rw [show s.crypto = false from h0] at hc; cases hc
  | encrypt p m salt rounds =>
    by_cases hp : p = []
    · simp only [step, if_pos hp]; exact hx
    rcases encrypt_inv L h hs.1 hs.2 rounds (p := p) with ⟨_, he⟩ | ⟨_, _, he⟩ | ⟨_, _, he, hi, _, _, _, _, _, hh, _⟩
    · simp only [step, if_neg hp, he]; exact hx
    · simp only [step, if_neg hp, he, start_ok h.disk]; exact hx
    · rw [step_encrypt hp he]
      have := hh x hx
      generalize encryptWallet C s p m salt rounds = r at he this
      obtain ⟨a, b⟩ := r
      simp only at he
      subst he; exact this
  | lock =>
    simp only [step]
    split
    · rename_i hc
      rw [lock_crypto hc]; exact hx
    · exact hx
  | unlock p =>
    simp only [step]
    split
    · exact hx
    · rename_i hcp
      have hc : s.crypto = true := by cases hh : s.crypto <;> simp [hh] at hcp ⊢
      cases hu : unlock C p s with
      | none => exact hx
      | some s1 =>
        obtain ⟨m, i, k, g, he, _⟩ := has_opened L h hc hu
        rw [he]; exact hx
  | change old new rounds =>
    simp only [step]
    split
    · exact hx
    · rename_i hcp
      have hc : s.crypto = true := by cases hh : s.crypto <;> simp [hh] at hcp ⊢
      rcases change_form L h hc old new rounds with he | ⟨m, i, k, k', g, _, g', _, he⟩
      · rw [he]; exact hx
      · rw [he]
        show Has C new { s.disk with mas := [(i, k')] } x
        refine has_of_good (pass := pass) (d := s.disk) (d' := { s.disk with mas := [(i, k')] }) rfl (fun _ => rfl) ?_ hx
        intro m1 i1 k1 g1
        rw [← good_unique L g g1]
        exact ⟨i, k', g'⟩
  | remove y =>
    simp only [step]
    split
    · exact hx
    · unfold removeKey
      split
      · exact hx
      · rename_i hc
        have hc : s.crypto = false := by simpa using hc
        have h0 := (plain_iff h).mp hc
        show Has C pass { s.disk with ks := del s.disk.ks (C.pub y) } x
        unfold Has at hx ⊢
        rw [if_pos h0] at hx
        rw [if_pos (show ({ s.disk with ks := del s.disk.ks (C.pub y) } : Disk).ck = [] from h0)]
        obtain ⟨c, f, h1, h2⟩ := hx
        refine ⟨c, f, ?_, h2⟩
        show find (del s.disk.ks (C.pub y)) _ = _
        rw [find_del, if_neg (fun he => hn ⟨hc, he.symm⟩)]
        exact h1
  | drop reg =>
    simp only [step]
    split
    · exact hx
    · have hc : s.crypto = true := by
        cases hh : s.crypto
        · exact absurd hh hn
        · rfl
      exact has_ks ((crypto_iff h).mp hc) _ hx
  | restart => simp only [step, start_ok h.disk]; exact hx
  | cut id c n =>
    simp only [step]
    split
    · exact hx
    · have := cut_inv h id hs n
      rw [start_ok this]
      exact has_cut L h id n hs (fun a b d => hn ⟨a, b, d⟩) hx

/-- Whatever is done, interrupted or refused: the wallet file can be read again. -/
theorem always_loads (L : Laws C) {pass : Bytes} {s : St} (h : Run C pass s) {fresh : Bytes} {op : Op} (hs : Sane C s op) : (step C fresh s op).2 ≠ .corrupt := by
  have hi := run_inv L h
  have hadd : ∀ (s : St) (id : Nat) (c : Combi), Inv C pass s → (∀ x, c.main = some x → x.length = 32) → (addStep C fresh s id c).2 ≠ .corrupt := by
    intro s id c hi hl
    obtain ⟨hd, _⟩ := add_inv hi id hl
    by_cases hh : (addKey C s id c).2 = .died
    · rw [addStep_died hh, start_ok hd]; exact fun h => by cases h
    · rw [addStep_lives hh]
      unfold addKey
      split
      · exact fun h => by cases h
      · simp only
        split
        · exact fun h => by cases h
        · split
          · exact fun h => by cases h
          · split
            · exact fun h => by cases h
            · split
              · exact fun h => by cases h
              · exact fun h => by cases h
  cases op with
  | add id c =>
    simp only [step]
    split
    · exact fun h => by cases h
    · exact hadd s id c hi hs
  | late id c =>
    simp only [step]
    split
    · exact fun h => by cases h
    · rename_i hcp
      exact hadd (lock s) id c (lock_inv hi (by cases hh : s.crypto <;> simp [hh] at hcp ⊢)) hs
  | encrypt p m salt rounds =>
    by_cases hp : p = []
    · simp only [step, if_pos hp]; exact fun h => by cases h
    rcases encrypt_inv L hi hs.1 hs.2 rounds (p := p) with ⟨_, he⟩ | ⟨_, _, he⟩ | ⟨_, _, he, _⟩
    · simp only [step, if_neg hp, he]; exact fun h => by cases h
    · simp only [step, if_neg hp, he, start_ok hi.disk]; exact fun h => by cases h
    · rw [step_encrypt hp he, he]; exact fun h => by cases h
  | lock => simp only [step]; split <;> exact fun h => by cases h
  | unlock p =>
    simp only [step]
    split
    · exact fun h => by cases h
    · cases unlock C p s <;> exact fun h => by cases h
  | change old new rounds =>
    simp only [step]
    split
    · exact fun h => by cases h
    · rename_i hcp
      rcases change_form L hi (by cases hh : s.crypto <;> simp [hh] at hcp ⊢) old new rounds with he | ⟨_, _, _, _, _, _, _, _, he⟩
      · rw [he]; exact fun h => by cases h
      · rw [he]; exact fun h => by cases h
  | remove y =>
    simp only [step]
    split
    · exact fun h => by cases h
    · unfold removeKey
      split <;> exact fun h => by cases h
  | drop reg => simp only [step]; split <;> exact fun h => by cases h
  | restart => simp only [step, start_ok hi.disk]; exact fun h => by cases h
  | cut id c n =>
    simp only [step]
    split
    · exact fun h => by cases h
    · rw [start_ok (cut_inv hi id hs n)]; exact fun h => by cases h

/-- A key that was added can be used. -/
theorem added_key_usable (L : Laws C) {pass : Bytes} {s : St} (h : Run C pass s) {fresh : Bytes} {id : Nat} {c : Combi} {x : Bytes} (hs : Sane C s (.add id c))
    (hx : c.main = some x) (hy : (step C fresh s (.add id c)).2 = .yes) : Usable C pass (step C fresh s (.add id c)).1 x := by
  have hi := run_inv L h
  have := step_inv L hi (fresh := fresh) hs
  refine (usable_iff L this x).mpr ?_
  simp only [step] at hy ⊢
  split at hy
  · cases hy
  · rename_i hk
    rw [if_neg hk]
    have hne : (addKey C s id c).2 ≠ .died := by
      intro hd
      rw [addStep_died hd, start_ok (add_inv hi id hs).1] at hy
      cases hy
    rw [addStep_lives hne] at hy ⊢
    exact has_added L hi hx (hs x hx) hy

/-- A usable key stays usable. Partial: in a wallet without encryption an imported mining key replaces the main key of its address. -/
theorem keys_kept_partial (L : Laws C) {pass : Bytes} {s : St} (h : Run C pass s) {fresh : Bytes} {op : Op} (hs : Sane C s op) {x : Bytes} (hn : ¬ Loses C s x op)
    (hx : Usable C pass s x) : Usable C (newPass pass op (step C fresh s op).2) (step C fresh s op).1 x := by
  have hi := run_inv L h
  exact (usable_iff L (step_inv L hi hs) x).mpr (has_step L hi hs hn ((usable_iff L hi x).mp hx))

/-- Commands, restarts and crashes that do not take the key `x` away -/
inductive Keeps (C : Crypto) (x : Bytes) : Bytes → St → Bytes → St → Prop
  | refl (p : Bytes) (s : St) : Keeps C x p s p s
  | step {p p' : Bytes} {s s' : St} (fresh : Bytes) (op : Op) : Keeps C x p s p' s' → Sane C s' op → ¬ Loses C s' x op →
      Keeps C x p s (newPass p' op (step C fresh s' op).2) (step C fresh s' op).1

/-- Whatever happens later, the key is there, with the passphrase of the time. -/
theorem keys_kept_forever_partial (L : Laws C) {x p p' : Bytes} {s s' : St} (h : Run C p s) (hx : Usable C p s x) (hk : Keeps C x p s p' s') :
    Run C p' s' ∧ Usable C p' s' x := by
  induction hk with
  | refl => exact ⟨h, hx⟩
  | step fresh op _ hs hn ih => exact ⟨(ih h hx).1.step fresh op hs, keys_kept_partial L (ih h hx).1 hs hn (ih h hx).2⟩

/-- The first key of a new wallet can be used. -/
theorem first_key_usable (pass fresh : Bytes) : Usable C pass (init C fresh) fresh := by
  simp [Usable, opened, init, getKey, find]

/-- The result of adding a key -/
theorem add_result {pass : Bytes} {s : St} (L : Laws C) (h : Run C pass s) {fresh : Bytes} {id : Nat} {c : Combi} (hs : Sane C s (.add id c)) :
    (step C fresh s (.add id c)).2 =
      if locked s then .no
      else if ∃ x, c.main = some x ∧ C.pub x ≠ id then .no
      else if s.crypto = true ∧ c.main = none then .died
      else .yes := by
  have hi := run_inv L h
  simp only [step]
  by_cases hk : locked s = true
  · rw [if_pos hk, if_pos hk]
  rw [if_neg hk, if_neg hk]
  have hadd : (addKey C s id c).2 = if ∃ x, c.main = some x ∧ C.pub x ≠ id then .no
      else if s.crypto = true ∧ c.main = none then .died
      else .yes := by
    unfold addKey
    cases hm : c.main with
    | none =>
      have hb : badId C id c = false := by simp [badId, hm]
      by_cases hc : s.crypto = true
      · simp only [locked, hc, Bool.true_and] at hk
        simp [hb, hc, locked, hk]
      · simp [hb, hc]
    | some x =>
      by_cases hb : badId C id c = true
      · rw [if_pos hb, if_pos]
        refine ⟨x, rfl, ?_⟩
        simp only [badId, hm, decide_eq_true_eq] at hb
        exact fun he => hb he.symm
      · have hp := badId_main (by simpa using hb) hm
        have hb : badId C id c = false := by simpa using hb
        by_cases hc : s.crypto = true
        · obtain ⟨i, k, g⟩ := unlocked_good hi hc hk
          simp only [locked, hc, Bool.true_and] at hk
          simp [hb, hc, locked, hk, encSecret_ok g.len, hp]
        · simp [hb, hc, hp]
  rw [← hadd]
  by_cases hd : (addKey C s id c).2 = .died
  · rw [addStep_died hd, start_ok (add_inv hi id hs).1, hd]
  · rw [addStep_lives hd]

/-- Encryption succeeds if every address has a main key, is refused if the wallet is encrypted, and ends the program else. -/
theorem encrypt_result (L : Laws C) {pass : Bytes} {s : St} (h : Run C pass s) {fresh p m salt : Bytes} {rounds : Nat} (hs : Sane C s (.encrypt p m salt rounds)) :
    (step C fresh s (.encrypt p m salt rounds)).2 =
      if p = [] ∨ s.crypto = true then .no
      else if ∃ q ∈ s.keys, q.2.main = none then .died
      else .yes := by
  have hi := run_inv L h
  by_cases hp : p = []
  · simp only [step, if_pos hp]; rw [if_pos (Or.inl hp)]
  rcases encrypt_inv L hi hs.1 hs.2 rounds (p := p) with ⟨hc, he⟩ | ⟨hc, hq, he⟩ | ⟨hc, hq, he, _⟩
  · simp only [step, if_neg hp, he]; rw [if_pos (Or.inr hc)]
  · simp only [step, if_neg hp, he, start_ok hi.disk]
    rw [if_neg (by rintro (h | h); exact hp h; rw [hc] at h; cases h), if_pos hq]
  · rw [step_encrypt hp he, he, if_neg (by rintro (h | h); exact hp h; rw [hc] at h; cases h), if_neg]
    rintro ⟨q, h1, h2⟩
    exact hq q h1 h2

/-- The mining key `y` of the address is in memory and in the file. -/
def Mines (s : St) (id : Nat) (y : Bytes) : Prop :=
  (find s.keys id).bind Combi.miner = some y ∧ (find s.disk.ks id).bind (fun c => c.1.miner) = some y

/-- The command gives new keys to the address or removes it. -/
def Touches (C : Crypto) (id : Nat) : Op → Prop
  | .add i _ => i = id
  | .late i _ => i = id
  | .cut i _ _ => i = id
  | .remove x => C.pub x = id
  | _ => False

theorem mines_loaded {d : Disk} {id : Nat} {y : Bytes} (h : (find d.ks id).bind (fun c => c.1.miner) = some y) : Mines (loaded d) id y := by
  refine ⟨?_, h⟩
  show (find (d.ks.map fun q => (q.1, q.2.1)) id).bind _ = _
  rw [find_map Prod.fst]
  cases hf : find d.ks id with
  | none => rw [hf] at h; cases h
  | some c => rw [hf] at h; exact h

theorem writeCrypted_other (d : Disk) {p id : Nat} (ct : Bytes) (h : id ≠ p) : find (writeCrypted d p ct).ks id = find d.ks id := by
  unfold writeCrypted
  simp only
  split
  · rfl
  · split
    · show find (put lt d.ks p _) id = _
      rw [find_put, if_neg h]
    · rfl

theorem writeCrypted_miner (d : Disk) (p id : Nat) (ct : Bytes) :
    (find (writeCrypted d p ct).ks id).bind (fun c => c.1.miner) = (find d.ks id).bind (fun c => c.1.miner) := by
  unfold writeCrypted
  simp only
  split
  · rfl
  · rename_i c f hf
    have hf : find d.ks p = some (c, f) := hf
    split
    · show (find (put lt d.ks p _) id).bind _ = _
      rw [find_put]
      split
      · rename_i he
        rw [he, hf]; rfl
      · rfl
    · rfl

theorem mines_addKey {s : St} {i id : Nat} (c : Combi) {y : Bytes} (hi : i ≠ id) (h : Mines s id y) : Mines (addKey C s i c).1 id y := by
  have hk : (find (put lt s.keys i c) id).bind Combi.miner = some y := by
    rw [find_put, if_neg (fun he => hi he.symm)]; exact h.1
  have hd : (find (put lt s.disk.ks i (c, s.ver)) id).bind (fun c => c.1.miner) = some y := by
    rw [find_put, if_neg (fun he => hi he.symm)]; exact h.2
  unfold addKey
  split
  · exact h
  · simp only
    split
    · exact ⟨hk, hd⟩
    · split
      · exact ⟨h.1, hd⟩
      · split
        · exact ⟨h.1, hd⟩
        · split
          · exact ⟨hk, hd⟩
          · refine ⟨hk, ?_⟩
            rw [writeCrypted_miner]; exact hd

/-- A mining key stays, in memory and file, until its address gets other keys or is removed. -/
theorem mining_keys_kept (L : Laws C) {pass : Bytes} {s : St} (h : Run C pass s) {fresh : Bytes} {op : Op} (hs : Sane C s op) {id : Nat} {y : Bytes}
    (ht : ¬ Touches C id op) (hm : Mines s id y) : Mines (step C fresh s op).1 id y := by
  have hi := run_inv L h
  have hadd : ∀ (s : St) (i : Nat) (c : Combi), Inv C pass s → (∀ x, c.main = some x → x.length = 32) → i ≠ id → Mines s id y → Mines (addStep C fresh s i c).1 id y := by
    intro s i c hi hl hne hm
    have h1 := mines_addKey (C := C) c hne hm
    by_cases hd : (addKey C s i c).2 = .died
    · rw [addStep_died hd, start_ok (add_inv hi i hl).1]; exact mines_loaded h1.2
    · rw [addStep_lives hd]; exact h1
  cases op with
  | add i c =>
    simp only [step]
    split
    · exact hm
    · exact hadd s i c hi hs ht hm
  | late i c =>
    simp only [step]
    split
    · exact hm
    · rename_i hcp
      have hc : s.crypto = true := by cases hh : s.crypto <;> simp [hh] at hcp ⊢
      exact hadd (lock s) i c (lock_inv hi hc) hs ht (by rw [lock_crypto hc]; exact hm)
  | encrypt p m salt rounds =>
    by_cases hp : p = []
    · simp only [step, if_pos hp]; exact hm
    rcases encrypt_inv L hi hs.1 hs.2 rounds (p := p) with ⟨_, he⟩ | ⟨_, _, he⟩ | ⟨_, _, he, _, _, _, _, _, hk, _, hks⟩
    · simp only [step, if_neg hp, he]; exact hm
    · simp only [step, if_neg hp, he, start_ok hi.disk]; exact mines_loaded hm.2
    · rw [step_encrypt hp he]
      unfold Mines at hm ⊢
      rw [hk, find_map]
      cases hf : find s.keys id with
      | none => rw [hf] at hm; cases hm.1
      | some c =>
        rw [hf] at hm
        rw [hks id c hf]
        exact ⟨hm.1, hm.1⟩
  | lock =>
    simp only [step]
    split
    · rename_i hc
      rw [lock_crypto hc]; exact hm
    · exact hm
  | unlock p =>
    simp only [step]
    split
    · exact hm
    · rename_i hcp
      have hc : s.crypto = true := by cases hh : s.crypto <;> simp [hh] at hcp ⊢
      cases hu : unlock C p s with
      | none => exact hm
      | some s1 =>
        obtain ⟨m, i, k, g, he, _⟩ := has_opened L hi hc hu
        rw [he]; exact hm
  | change old new rounds =>
    simp only [step]
    split
    · exact hm
    · rename_i hcp
      rcases change_form L hi (by cases hh : s.crypto <;> simp [hh] at hcp ⊢) old new rounds with he | ⟨_, _, _, _, _, _, _, _, he⟩
      · rw [he]; exact hm
      · rw [he]; exact hm
  | remove x =>
    simp only [step]
    split
    · exact hm
    · unfold removeKey
      split
      · exact hm
      · refine ⟨?_, ?_⟩
        · show (find (del s.keys _) id).bind _ = _
          rw [find_del, if_neg (fun he => ht he.symm)]; exact hm.1
        · show (find (del s.disk.ks _) id).bind _ = _
          rw [find_del, if_neg (fun he => ht he.symm)]; exact hm.2
  | drop reg =>
    simp only [step]
    split
    · exact hm
    · refine ⟨?_, ?_⟩
      · show (find (s.keys.map fun p => (p.1, p.2.purge)) id).bind _ = _
        rw [find_map]
        cases hf : find s.keys id with
        | none => have := hm.1; rw [hf] at this; cases this
        | some c => have := hm.1; rw [hf] at this; exact this
      · show (find (s.keys.foldl (fun ks p => put lt ks p.1 (p.2.purge, s.ver)) s.disk.ks) id).bind _ = _
        rw [find_foldl (fun c : Combi => (c.purge, s.ver)) s.keys s.disk.ks id hi.sorted]
        cases hf : find s.keys id with
        | none => have := hm.1; rw [hf] at this; cases this
        | some c => have := hm.1; rw [hf] at this; exact this
  | restart => simp only [step, start_ok hi.disk]; exact mines_loaded hm.2
  | cut i c n =>
    simp only [step]
    split
    · exact hm
    · rw [start_ok (cut_inv hi i hs n)]
      refine mines_loaded ?_
      have hd : (find (put lt s.disk.ks i (c, s.ver)) id).bind (fun c => c.1.miner) = some y := by
        rw [find_put, if_neg (fun he => ht he.symm)]; exact hm.2
      unfold addCut
      split
      · exact hm.2
      · simp only
        split
        · exact hd
        · split
          · exact hd
          · split <;> exact hd

/-- A mining key that was added is in memory and in the file; mining asks for it with `getKey`. -/
theorem mining_key_added (L : Laws C) {pass : Bytes} {s : St} (h : Run C pass s) {fresh : Bytes} {id : Nat} {c : Combi} (hs : Sane C s (.add id c))
    {y : Bytes} (hy : c.miner = some y) (ho : (step C fresh s (.add id c)).2 = .yes) :
    Mines (step C fresh s (.add id c)).1 id y ∧ getKey C (step C fresh s (.add id c)).1 id true = some y := by
  have hi := run_inv L h
  have : Mines (step C fresh s (.add id c)).1 id y := by
    simp only [step] at ho ⊢
    split at ho
    · cases ho
    · rename_i hk
      rw [if_neg hk]
      have hne : (addKey C s id c).2 ≠ .died := by
        intro hd
        rw [addStep_died hd, start_ok (add_inv hi id hs).1] at ho
        cases ho
      rw [addStep_lives hne] at ho ⊢
      have h1 : (find (put lt s.keys id c) id).bind Combi.miner = some y := by rw [find_put, if_pos rfl]; exact hy
      have h2 : (find (put lt s.disk.ks id (c, s.ver)) id).bind (fun c => c.1.miner) = some y := by rw [find_put, if_pos rfl]; exact hy
      unfold addKey at ho ⊢
      split at ho
      · cases ho
      · rename_i hb
        rw [if_neg hb]
        simp only at ho ⊢
        split at ho
        · rename_i hc
          rw [if_pos hc]; exact ⟨h1, h2⟩
        · rename_i hc
          rw [if_neg hc]
          rw [if_neg (by rw [locked_disk]; exact hk)] at ho ⊢
          cases hm : c.main with
          | none => rw [hm] at ho; cases ho
          | some x =>
            simp only [hm] at ho ⊢
            cases he : encSecret C s.master (C.pub x) x with
            | none => rw [he] at ho; cases ho
            | some ct =>
              refine ⟨h1, ?_⟩
              simp only
              rw [writeCrypted_miner]; exact h2
  refine ⟨this, ?_⟩
  unfold getKey
  rw [if_pos rfl]
  exact this.1

/-- `importprivkey` of a mining key for an address of the wallet: the main key of the address is lost. -/
theorem import_loses_key_violated (pass fresh y : Bytes) :
    Usable C pass (init C fresh) fresh ∧ (step C fresh (init C fresh) (.add (C.pub fresh) ⟨none, some y⟩)).2 = .yes ∧
      ¬ Usable C pass (step C fresh (init C fresh) (.add (C.pub fresh) ⟨none, some y⟩)).1 fresh := by
  refine ⟨first_key_usable pass fresh, ?_, ?_⟩
  · simp [step, addStep, addKey, init, locked, badId]
  · simp [step, addStep, addKey, init, locked, badId, put, Usable, opened, getKey, find]

/-- In an unlocked encrypted wallet the same command ends the program. -/
theorem import_aborts_violated (L : Laws C) {pass : Bytes} {s : St} (h : Run C pass s) (hc : s.crypto = true) (hk : locked s = false) (fresh y : Bytes) (id : Nat) :
    (step C fresh s (.add id ⟨none, some y⟩)).2 = .died := by
  rw [add_result L h (fun x hx => by cases hx), if_neg (by simp [hk]), if_neg (by rintro ⟨x, hx, _⟩; cases hx), if_pos ⟨hc, rfl⟩]

/-- A wallet with an address whose main key was dropped (for cold mining) cannot be encrypted: the program ends. -/
theorem encrypt_aborts_violated (L : Laws C) {pass : Bytes} {s : St} (h : Run C pass s) (hc : s.crypto = false) (fresh y : Bytes) (id : Nat)
    {p m salt : Bytes} (rounds : Nat) (hm : m.length = 32) (hs : salt.length = 8) (hp : p ≠ []) :
    (step C fresh (step C fresh s (.add id ⟨none, some y⟩)).1 (.encrypt p m salt rounds)).2 = .died := by
  have hsane : Sane C s (.add id ⟨none, some y⟩) := fun x hx => by cases hx
  have hr := h.step fresh _ hsane
  have hl : locked s = false := by simp [locked, hc]
  have he : (step C fresh s (.add id ⟨none, some y⟩)).1.crypto = false ∧ (id, (⟨none, some y⟩ : Combi)) ∈ (step C fresh s (.add id ⟨none, some y⟩)).1.keys := by
    simp only [step, hl, Bool.false_eq_true, if_false]
    rw [addStep_lives (by simp [addKey, badId, hc])]
    simp only [addKey, badId, hc, Bool.false_eq_true, if_false, Bool.not_false, if_true, true_and]
    refine find_mem ?_
    rw [find_put, if_pos rfl]
  rw [encrypt_result L hr ⟨hm, hs⟩, if_neg (by rintro (h | h); exact hp h; rw [he.1] at h; cases h), if_pos ⟨_, he.2, rfl⟩]

/-! ## C137: keys are not shown -/

/-- A locked wallet gives no main key. -/
theorem locked_gives_no_key {s : St} (h : locked s = true) (id : Nat) : getKey C s id false = none := by
  simp only [locked, Bool.and_eq_true, List.isEmpty_iff] at h
  unfold getKey
  simp only [Bool.false_eq_true, if_false, h.1, Bool.not_true]
  split
  · rfl
  · simp [decSecret, h.2]

/-- Locking, encrypting and restarting leave an encrypted wallet locked. -/
theorem locked_after (L : Laws C) {pass : Bytes} {s : St} (h : Run C pass s) {fresh : Bytes} {op : Op} (hs : Sane C s op)
    (ho : (op = .lock ∨ op = .restart) ∧ s.crypto = true ∨ (∃ p m salt r, op = .encrypt p m salt r) ∧ (step C fresh s op).2 = .yes) :
    locked (step C fresh s op).1 = true := by
  have hi := run_inv L h
  rcases ho with ⟨rfl | rfl, hc⟩ | ⟨⟨p, m, salt, r, rfl⟩, hy⟩
  · simp only [step, hc, if_true, lock_crypto hc]
    simp [locked, hc]
  · simp only [step, start_ok hi.disk]
    simp [locked, loaded, (crypto_iff hi).mp hc]
  · by_cases hp : p = []
    · simp [step, hp] at hy
    rcases encrypt_inv L hi hs.1 hs.2 r (p := p) with ⟨_, he⟩ | ⟨_, _, he⟩ | ⟨_, _, he, _, _, hl, _⟩
    · simp [step, if_neg hp, he] at hy
    · simp [step, if_neg hp, he, start_ok hi.disk] at hy
    · rw [step_encrypt hp he]; exact hl

/-- No main key stands in the file of an encrypted wallet except encrypted. -/
def FileClean (d : Disk) : Prop := d.ck ≠ [] → ∀ q ∈ d.ks, q.2.1.main = none

/-- The wallet is not locked by the timer while a key is added, and the program is not ended then. -/
def Calm (s : St) : Op → Prop
  | .late _ c => c.main = none
  | .cut _ c _ => s.crypto = false ∨ c.main = none
  | _ => True

theorem clean_add {pass : Bytes} {s : St} (h : Inv C pass s) (id : Nat) {c : Combi} (hl : ∀ x, c.main = some x → x.length = 32)
    (hk : locked s = true → c.main = none) (hf : FileClean s.disk) : FileClean (addKey C s id c).1.disk := by
  unfold addKey
  by_cases hb : badId C id c = true
  · rw [if_pos hb]; exact hf
  rw [if_neg hb]
  have hb : badId C id c = false := by simpa using hb
  have hput : c.main = none → FileClean { s.disk with ks := put lt s.disk.ks id (c, s.ver) } := by
    intro hm hck q hq
    rcases mem_put hq with rfl | hq
    · exact hm
    · exact hf hck q hq
  simp only
  by_cases hc : s.crypto = true
  · rw [if_neg (by simp [hc])]
    by_cases hk' : locked s = true
    · rw [if_pos (by rw [locked_disk]; exact hk')]; exact hput (hk hk')
    · rw [if_neg (by rw [locked_disk]; exact hk')]
      cases hm : c.main with
      | none => exact hput hm
      | some x =>
        obtain ⟨i, k, g⟩ := unlocked_good h hc hk'
        have hp := badId_main hb hm
        simp only
        rw [encSecret_ok g.len]
        simp only
        intro _ q hq
        unfold writeCrypted at hq
        simp only at hq
        rw [find_put, if_pos hp] at hq
        simp only at hq
        rw [if_pos (show s.ver = _ from h.ver)] at hq
        have h1 := (mem_iff_find lt_total (sorted_put lt_total (sorted_put lt_total h.disk.sorted id (c, s.ver)) (C.pub x) (c.purge, true)) q.1 q.2).mp hq
        rw [find_put, find_put, hp] at h1
        split at h1
        · rw [← Option.some.inj h1]; rfl
        · exact hf g.some q (find_mem h1)
  · have hc' : s.crypto = false := by simpa using hc
    rw [if_pos (by simp [hc'])]
    intro hck
    exact absurd ((plain_iff h).mp hc') hck

theorem clean_step (L : Laws C) {pass : Bytes} {s : St} (h : Inv C pass s) {fresh : Bytes} {op : Op} (hs : Sane C s op) (hc : Calm s op) (hf : FileClean s.disk) :
    FileClean (step C fresh s op).1.disk := by
  have hadd : ∀ (s : St) (id : Nat) (c : Combi), Inv C pass s → (∀ x, c.main = some x → x.length = 32) → (locked s = true → c.main = none) → FileClean s.disk →
      FileClean (addStep C fresh s id c).1.disk := by
    intro s id c hi hl hk hf
    have h1 := clean_add hi id hl hk hf
    by_cases hd : (addKey C s id c).2 = .died
    · rw [addStep_died hd, start_ok (add_inv hi id hl).1]; exact h1
    · rw [addStep_lives hd]; exact h1
  cases op with
  | add id c =>
    simp only [step]
    split
    · exact hf
    · rename_i hk
      exact hadd s id c h hs (fun h' => absurd h' hk) hf
  | late id c =>
    simp only [step]
    split
    · exact hf
    · rename_i hcp
      have hcr : s.crypto = true := by cases hh : s.crypto <;> simp [hh] at hcp ⊢
      exact hadd (lock s) id c (lock_inv h hcr) hs (fun _ => hc) (by rw [lock_crypto hcr]; exact hf)
  | encrypt p m salt rounds =>
    by_cases hp : p = []
    · simp only [step, if_pos hp]; exact hf
    rcases encrypt_inv L h hs.1 hs.2 rounds (p := p) with ⟨_, he⟩ | ⟨_, _, he⟩ | ⟨_, _, he, _, _, _, _, hk, _⟩
    · simp only [step, if_neg hp, he]; exact hf
    · simp only [step, if_neg hp, he, start_ok h.disk]; exact hf
    · rw [step_encrypt hp he]; exact fun _ => hk
  | lock =>
    simp only [step]
    split
    · rename_i hc
      rw [lock_crypto hc]; exact hf
    · exact hf
  | unlock p =>
    simp only [step]
    split
    · exact hf
    · rename_i hcp
      have hc : s.crypto = true := by cases hh : s.crypto <;> simp [hh] at hcp ⊢
      cases hu : unlock C p s with
      | none => exact hf
      | some s1 =>
        obtain ⟨m, i, k, g, he, _⟩ := has_opened L h hc hu
        rw [he]; exact hf
  | change old new rounds =>
    simp only [step]
    split
    · exact hf
    · rename_i hcp
      have hc : s.crypto = true := by cases hh : s.crypto <;> simp [hh] at hcp ⊢
      rcases change_form L h hc old new rounds with he | ⟨m, i, k, k', g, _, g', _, he⟩
      · rw [he]; exact hf
      · rw [he]; exact hf
  | remove y =>
    simp only [step]
    split
    · exact hf
    · unfold removeKey
      split
      · exact hf
      · rename_i hc
        have hc : s.crypto = false := by simpa using hc
        exact fun hck => absurd ((plain_iff h).mp hc) hck
  | drop reg =>
    simp only [step]
    split
    · exact hf
    · intro hck q hq
      rcases mem_foldl (fun c : Combi => (c.purge, s.ver)) s.keys s.disk.ks q hq with hq | ⟨p, _, rfl⟩
      · exact hf hck q hq
      · rfl
  | restart => simp only [step, start_ok h.disk]; exact hf
  | cut id c n =>
    simp only [step]
    split
    · exact hf
    · rw [start_ok (cut_inv h id hs n)]
      show FileClean (addCut C s id c n)
      unfold addCut
      split
      · exact hf
      · simp only
        rcases hc with hc | hc
        · rw [if_pos (by simp [hc])]
          exact fun hck => absurd ((plain_iff h).mp hc) hck
        · rw [hc]
          have : FileClean { s.disk with ks := put lt s.disk.ks id (c, s.ver) } := by
            intro hck q hq
            rcases mem_put hq with rfl | hq
            · exact hc
            · exact hf hck q hq
          split <;> exact this

/-- As `Run`, with keys added without interruption -/
inductive CalmRun (C : Crypto) : Bytes → St → Prop
  | init (pass fresh : Bytes) : fresh.length = 32 → CalmRun C pass (init C fresh)
  | step {pass : Bytes} {s : St} (fresh : Bytes) (op : Op) : CalmRun C pass s → Sane C s op → Calm s op →
      CalmRun C (newPass pass op (step C fresh s op).2) (step C fresh s op).1

/-- The file of an encrypted wallet holds no main key in the clear. Partial: no key is added while the timer locks the wallet or the program ends. -/
theorem file_hides_keys_partial (L : Laws C) {pass : Bytes} {s : St} (h : CalmRun C pass s) : Run C pass s ∧ FileClean s.disk := by
  induction h with
  | init pass fresh hf => exact ⟨.init pass fresh hf, fun hck => absurd rfl hck⟩
  | step fresh op _ hs hc ih => exact ⟨ih.1.step fresh op hs, clean_step L (run_inv L ih.1) hs hc ih.2⟩

/-- The timer locks the wallet while a key is added: the command is refused, but the key stands in the file unencrypted. -/
theorem file_hides_keys_violated (L : Laws C) {pass : Bytes} {s : St} (h : Run C pass s) (hc : s.crypto = true) (hk : locked s = false) (fresh : Bytes) {x : Bytes}
    (hx : x.length = 32) :
    (step C fresh s (.late (C.pub x) ⟨some x, none⟩)).2 = .no ∧ (step C fresh s (.late (C.pub x) ⟨some x, none⟩)).1.disk.ck ≠ [] ∧
      (C.pub x, (⟨some x, none⟩ : Combi), true) ∈ (step C fresh s (.late (C.pub x) ⟨some x, none⟩)).1.disk.ks := by
  have hi := run_inv L h
  obtain ⟨m, i, k, g⟩ := good_of hi hc
  have hl : addKey C (lock s) (C.pub x) ⟨some x, none⟩ =
      ({ lock s with disk := { s.disk with ks := put lt s.disk.ks (C.pub x) (⟨some x, none⟩, s.ver) } }, .no) := by
    rw [lock_crypto hc]
    simp [addKey, badId, hc, locked]
  have : step C fresh s (.late (C.pub x) ⟨some x, none⟩) =
      ({ lock s with disk := { s.disk with ks := put lt s.disk.ks (C.pub x) (⟨some x, none⟩, s.ver) } }, .no) := by
    simp only [step, hc, hk]
    rw [addStep_lives (by rw [hl]; exact fun h => by cases h), hl]
    rfl
  rw [this]
  refine ⟨rfl, g.some, find_mem ?_⟩
  show find (put lt _ _ _) _ = _
  rw [find_put, if_pos rfl, hi.ver, g.ver]

/-- No main key stands in the memory of an encrypted wallet except encrypted. -/
def MemClean (s : St) : Prop := s.crypto = true → ∀ q ∈ s.keys, q.2.main = none

/-- Memory after encryption and, if the file is clean, after a restart. Partial: not after adding a key. -/
theorem memory_hides_keys_partial (L : Laws C) {pass : Bytes} {s : St} (h : Run C pass s) {fresh : Bytes} {op : Op} (hs : Sane C s op)
    (ho : (∃ p m salt r, op = .encrypt p m salt r) ∧ (step C fresh s op).2 = .yes ∨ op = .restart ∧ FileClean s.disk) : MemClean (step C fresh s op).1 := by
  have hi := run_inv L h
  rcases ho with ⟨⟨p, m, salt, r, rfl⟩, hy⟩ | ⟨rfl, hf⟩
  · by_cases hp : p = []
    · simp [step, hp] at hy
    rcases encrypt_inv L hi hs.1 hs.2 r (p := p) with ⟨_, he⟩ | ⟨_, _, he⟩ | ⟨_, _, he, _, _, _, hl, _⟩
    · simp [step, if_neg hp, he] at hy
    · simp [step, if_neg hp, he, start_ok hi.disk] at hy
    · rw [step_encrypt hp he]; exact fun _ => hl
  · simp only [step, start_ok hi.disk]
    intro hc q hq
    obtain ⟨q', hq', rfl⟩ := List.mem_map.mp hq
    refine hf ?_ q' hq'
    intro h0
    simp [loaded, h0] at hc

/-- A key added to an unlocked encrypted wallet stays in memory unencrypted, also after the wallet is locked. -/
theorem memory_hides_keys_violated (L : Laws C) {pass : Bytes} {s : St} (h : Run C pass s) (hc : s.crypto = true) (hk : locked s = false) (fresh : Bytes) {x : Bytes}
    (hx : x.length = 32) :
    locked (step C fresh (step C fresh s (.add (C.pub x) ⟨some x, none⟩)).1 .lock).1 = true ∧
      (C.pub x, (⟨some x, none⟩ : Combi)) ∈ (step C fresh (step C fresh s (.add (C.pub x) ⟨some x, none⟩)).1 .lock).1.keys := by
  have hi := run_inv L h
  obtain ⟨i, k, g⟩ := unlocked_good hi hc (by simp [hk])
  have he : ∃ s1 : St, step C fresh s (.add (C.pub x) ⟨some x, none⟩) = (s1, .yes) ∧ s1.crypto = true ∧ s1.keys = put lt s.keys (C.pub x) ⟨some x, none⟩ := by
    have hm : s.master.isEmpty = false := by simpa [locked, hc] using hk
    have hk1 : addKey C s (C.pub x) ⟨some x, none⟩ = ({ s with
        keys := put lt s.keys (C.pub x) ⟨some x, none⟩
        ck := put lt s.ck (C.pub x) (C.enc s.master (C.pub x) x)
        disk := writeCrypted { s.disk with ks := put lt s.disk.ks (C.pub x) (⟨some x, none⟩, s.ver) } (C.pub x) (C.enc s.master (C.pub x) x) }, .yes) := by
      simp [addKey, badId, hc, locked, hm, encSecret_ok g.len]
    refine ⟨(addKey C s (C.pub x) ⟨some x, none⟩).1, ?_, ?_, ?_⟩
    · simp only [step, hk, Bool.false_eq_true, if_false]
      rw [addStep_lives (by rw [hk1]; exact fun h => by cases h), hk1]
    · rw [hk1]; exact hc
    · rw [hk1]
  obtain ⟨s1, h1, h2, h3⟩ := he
  rw [h1]
  simp only [step, h2, if_true, lock_crypto h2]
  refine ⟨by simp [locked, h2], ?_⟩
  show _ ∈ s1.keys
  rw [h3]
  refine find_mem ?_
  rw [find_put, if_pos rfl]

/-- `dropminermainkeys` on a wallet without encryption: no main key is left, also after a restart. Partial: not on an encrypted wallet. -/
theorem drop_removes_keys_partial (L : Laws C) {pass : Bytes} {s : St} (h : Run C pass s) (hc : s.crypto = false) (fresh : Bytes) (reg : Nat → Bool)
    (hy : (step C fresh s (.drop reg)).2 = .yes) (id : Nat) :
    getKey C (step C fresh s (.drop reg)).1 id false = none ∧ getKey C (step C fresh (step C fresh s (.drop reg)).1 .restart).1 id false = none := by
  have hi := run_inv L h
  have hd := drop_inv hi
  have he : step C fresh s (.drop reg) = (dropMain s, .yes) := by
    simp only [step] at hy ⊢
    split at hy
    · cases hy
    · rename_i hh; rw [if_neg hh]
  have hmem : (find (dropMain s).keys id).bind Combi.main = none := by
    show (find (s.keys.map fun p => (p.1, p.2.purge)) id).bind _ = none
    rw [find_map]
    cases find s.keys id <;> rfl
  rw [he]
  constructor
  · show getKey C (dropMain s) id false = none
    unfold getKey
    rw [show (dropMain s).crypto = false from hc]
    exact hmem
  · simp only [step, start_ok hd.disk]
    unfold getKey
    have h0 : (dropMain s).disk.ck = [] := (plain_iff hi).mp hc
    simp only [loaded, h0, List.isEmpty_nil, Bool.not_true, Bool.not_false, Bool.false_eq_true, if_false, if_true]
    rw [find_map Prod.fst, ← hd.keys hc id]
    exact hmem

/-- On an encrypted wallet the command reports success and every main key can still be used. -/
theorem drop_removes_keys_violated (L : Laws C) {pass : Bytes} {s : St} (h : Run C pass s) (hc : s.crypto = true) (fresh : Bytes) (reg : Nat → Bool)
    (hk : locked s = false) (hr : ready s reg = true) {x : Bytes} (hx : Usable C pass s x) :
    (step C fresh s (.drop reg)).2 = .yes ∧ Usable C pass (step C fresh s (.drop reg)).1 x := by
  refine ⟨by simp [step, hk, hr], ?_⟩
  exact keys_kept_partial L h (op := .drop reg) trivial (fun hl => by rw [show s.crypto = false from hl] at hc; cases hc) hx

/-! ## C138: the passphrase -/

/-- Different passphrases give different keys. -/
def KdfInj (C : Crypto) : Prop := ∀ p p' salt r, C.kdf p salt r = C.kdf p' salt r → p = p'

theorem dec_right (L : Laws C) (K : KdfInj C) {pass p m : Bytes} {i : Nat} {k : Master} {d : Disk} (g : Good C pass m i k d)
    (hd : C.dec (C.kdf p k.salt k.rounds) 0 k.ct = some m) : p = pass := by
  rw [g.ct] at hd
  exact K _ _ _ _ (L.commit _ _ _ _ hd)

/-- The current passphrase, and no other, unlocks the wallet. -/
theorem unlock_iff (L : Laws C) (K : KdfInj C) {pass : Bytes} {s : St} (h : Run C pass s) (hc : s.crypto = true) (fresh p : Bytes) (hp : p ≠ []) :
    (step C fresh s (.unlock p)).2 = .yes ↔ p = pass := by
  have hi := run_inv L h
  simp only [step, hc, Bool.not_true, Bool.false_or, decide_eq_true_eq, if_neg hp]
  constructor
  · intro hy
    cases hu : unlock C p s with
    | none => rw [hu] at hy; cases hy
    | some s1 =>
      obtain ⟨m, i, k, g, _, hd⟩ := has_opened L hi hc hu
      exact dec_right L K g hd
  · rintro rfl
    obtain ⟨m, i, k, g⟩ := good_of hi hc
    rw [unlock_right L hi g]

/-- An unlocked wallet gives every key in it; a wrong passphrase changes nothing. -/
theorem unlock_effect (L : Laws C) (K : KdfInj C) {pass : Bytes} {s : St} (h : Run C pass s) (hc : s.crypto = true) (fresh p : Bytes) :
    (p ≠ pass → (step C fresh s (.unlock p)).1 = s) ∧
    (p = pass → p ≠ [] → ∀ x, getKey C (step C fresh s (.unlock p)).1 (C.pub x) false = some x ↔ Usable C pass s x) := by
  have hi := run_inv L h
  constructor
  · intro hne
    by_cases hp : p = []
    · simp [step, hp]
    have := mt (unlock_iff L K h hc fresh p hp).mp hne
    simp only [step, hc, Bool.not_true, Bool.false_or, decide_eq_true_eq, if_neg hp] at this ⊢
    cases hu : unlock C p s with
    | none => rfl
    | some s1 => rw [hu] at this; exact absurd rfl this
  · rintro rfl hp x
    obtain ⟨m, i, k, g⟩ := good_of hi hc
    unfold Usable opened
    rw [if_pos hc]
    simp only [step, hc, Bool.not_true, Bool.false_or, decide_eq_true_eq, if_neg hp]
    rw [unlock_right L hi g]
    rfl

/-- In a wallet without encryption, or without a passphrase given, locking, unlocking and changing the
passphrase are refused and change nothing. -/
theorem no_passphrase_refused (s : St) (fresh old new : Bytes) (rounds : Nat) :
    (s.crypto = false → step C fresh s .lock = (s, .no) ∧ step C fresh s (.unlock old) = (s, .no) ∧
      step C fresh s (.change old new rounds) = (s, .no)) ∧
    (step C fresh s (.unlock []) = (s, .no) ∧ step C fresh s (.change [] new rounds) = (s, .no) ∧
      step C fresh s (.change old [] rounds) = (s, .no)) := by
  constructor
  · intro hc; simp [step, hc]
  · simp [step]

/-- The passphrase is changed by who knows it. -/
theorem change_iff (L : Laws C) (K : KdfInj C) {pass : Bytes} {s : St} (h : Run C pass s) (hc : s.crypto = true) (fresh old new : Bytes) (rounds : Nat)
    (ho : old ≠ []) (hn : new ≠ []) : (step C fresh s (.change old new rounds)).2 = .yes ↔ old = pass := by
  have hi := run_inv L h
  have he : step C fresh s (.change old new rounds) = changePass C s old new rounds := by simp [step, hc, ho, hn]
  rw [he]
  constructor
  · intro hy
    rcases change_form L hi hc old new rounds with hf | ⟨m, i, k, k', g, hd, _⟩
    · rw [hf] at hy; cases hy
    · exact dec_right L K g hd
  · rintro rfl
    obtain ⟨m, i, k, g⟩ := good_of hi hc
    have hmas : s.mas = [(i, k)] := hi.mas.trans g.mas
    unfold changePass
    rw [lock_crypto hc, hmas, tryChange, derive_ok old k.salt g.salt g.rounds, g.ct]
    simp only [L.dec_enc]
    have ho := opens_good L g
    rw [← hi.ck] at ho
    simp only [storeUnlock, setCrypted, hc, if_true, ho]
    rw [derive_ok new k.salt g.salt (by split <;> omega)]

/-- After the change the new passphrase and no other unlocks the wallet. -/
theorem changed (L : Laws C) (K : KdfInj C) {pass : Bytes} {s : St} (h : Run C pass s) (hc : s.crypto = true) (fresh old new p : Bytes) (rounds : Nat)
    (hy : (step C fresh s (.change old new rounds)).2 = .yes) (hp : p ≠ []) :
    (step C fresh (step C fresh s (.change old new rounds)).1 (.unlock p)).2 = .yes ↔ p = new := by
  have hr := h.step fresh (.change old new rounds) trivial
  rw [hy] at hr
  have hc' : (step C fresh s (.change old new rounds)).1.crypto = true := by
    have hi := run_inv L h
    simp only [step]
    split
    · exact hc
    · rcases change_form L hi hc old new rounds with he | ⟨m, i, k, k', g, _, g', _, he⟩
      · rw [he]; exact hc
      · rw [he]; exact hc
  exact unlock_iff L K hr hc' fresh p hp

/-- A refused change of the passphrase only locks the wallet. -/
theorem refused_change (L : Laws C) {pass : Bytes} {s : St} (h : Run C pass s) (fresh old new : Bytes) (rounds : Nat)
    (hy : (step C fresh s (.change old new rounds)).2 ≠ .yes) :
    (step C fresh s (.change old new rounds)).1 = s ∨ (step C fresh s (.change old new rounds)).1 = { s with master := [] } := by
  have hi := run_inv L h
  simp only [step] at hy ⊢
  split
  · exact Or.inl rfl
  · rename_i hcp
    rw [if_neg hcp] at hy
    rcases change_form L hi (by cases hh : s.crypto <;> simp [hh] at hcp ⊢) old new rounds with he | ⟨_, _, _, _, _, _, _, _, he⟩
    · rw [he]; exact Or.inr rfl
    · rw [he] at hy; exact absurd rfl hy

/-- It does lock it, though nothing else happened. -/
theorem refused_change_violated (L : Laws C) (K : KdfInj C) {pass : Bytes} {s : St} (h : Run C pass s) (hc : s.crypto = true) (fresh old new : Bytes) (rounds : Nat)
    (ho : old ≠ []) (hn : new ≠ []) (hne : old ≠ pass) : locked (step C fresh s (.change old new rounds)).1 = true := by
  have hi := run_inv L h
  have hy := mt (change_iff L K h hc fresh old new rounds ho hn).mp hne
  have he : step C fresh s (.change old new rounds) = changePass C s old new rounds := by simp [step, hc, ho, hn]
  rw [he] at hy ⊢
  rcases change_form L hi hc old new rounds with he | ⟨_, _, _, _, _, _, _, _, he⟩
  · rw [he]; simp [locked, hc]
  · rw [he] at hy; exact absurd rfl hy

theorem start_crypto {pass : Bytes} {d : Disk} (h : DInv C pass d) (s : St) (fresh : Bytes) (o : Out) (hd : d.ck ≠ []) : (start C s d fresh o).1.crypto = true := by
  rw [start_ok h]
  simp [loaded, hd]

/-- An encrypted wallet stays encrypted. Partial: the wallet has a key when it is encrypted (see `Sane`). -/
theorem stays_encrypted_partial (L : Laws C) {pass : Bytes} {s : St} (h : Run C pass s) (hc : s.crypto = true) {fresh : Bytes} {op : Op} (hs : Sane C s op) :
    (step C fresh s op).1.crypto = true := by
  have hi := run_inv L h
  have hi' := step_inv L hi (fresh := fresh) hs
  obtain ⟨m, i, k, g⟩ := good_of hi hc
  refine (crypto_iff hi').mpr ?_
  have hck := g.some
  have hadd : ∀ (s : St) (id : Nat) (c : Combi), Inv C pass s → (∀ x, c.main = some x → x.length = 32) → s.disk.ck ≠ [] → (addStep C fresh s id c).1.disk.ck ≠ [] := by
    intro s id c hi hl hck
    have h1 : (addKey C s id c).1.disk.ck ≠ [] := by
      unfold addKey
      split
      · exact hck
      · simp only
        split
        · exact hck
        · split
          · exact hck
          · split
            · exact hck
            · split
              · exact hck
              · show (writeCrypted _ _ _).ck ≠ []
                rw [writeCrypted_ck]; exact put_ne_nil _ _ _
    by_cases hd : (addKey C s id c).2 = .died
    · rw [addStep_died hd, start_ok (add_inv hi id hl).1]; exact h1
    · rw [addStep_lives hd]; exact h1
  cases op with
  | add id c =>
    simp only [step]
    split
    · exact hck
    · exact hadd s id c hi hs hck
  | late id c =>
    simp only [step]
    split
    · exact hck
    · exact hadd (lock s) id c (lock_inv hi hc) hs (by rw [lock_crypto hc]; exact hck)
  | encrypt p m salt rounds => simp only [step, encryptWallet, hc, if_true]; split <;> exact hck
  | lock => simp only [step, hc, if_true, lock_crypto hc]; exact hck
  | unlock p =>
    simp only [step]
    split
    · exact hck
    · cases hu : unlock C p s with
      | none => exact hck
      | some s1 =>
        obtain ⟨m, i, k, g, he, _⟩ := has_opened L hi hc hu
        rw [he]; exact hck
  | change old new rounds =>
    simp only [step]
    split
    · exact hck
    · rcases change_form L hi hc old new rounds with he | ⟨m, i, k, k', g, _, g', _, he⟩
      · rw [he]; exact hck
      · rw [he]; exact hck
  | remove y => simp only [step, removeKey, hc, if_true]; split <;> exact hck
  | drop reg => simp only [step]; split <;> exact hck
  | restart => simp only [step, start_ok hi.disk]; exact hck
  | cut id c n =>
    simp only [step]
    split
    · exact hck
    · rw [start_ok (cut_inv hi id hs n)]
      show (addCut C s id c n).ck ≠ []
      unfold addCut
      split
      · exact hck
      · simp only
        split
        · exact hck
        · split
          · exact hck
          · split
            · exact hck
            · exact put_ne_nil _ _ _

/-- A wallet whose only key was removed: encryption is reported, and after the restart that follows the wallet has a key and is not encrypted. -/
theorem stays_encrypted_violated (fresh fresh' : Bytes) {p m salt : Bytes} (hp : p ≠ []) (hs : salt.length = 8) (hf : fresh'.length = 32) :
    ∃ s1 s2 s3, step C fresh' (init C fresh) (.remove fresh) = (s1, .yes) ∧ step C fresh' s1 (.encrypt p m salt 0) = (s2, .yes) ∧ s2.crypto = true ∧
      step C fresh' s2 .restart = (s3, .yes) ∧ s3.crypto = false ∧ Usable C [] s3 fresh' := by
  have e1 : step C fresh' (init C fresh) (.remove fresh) = (⟨⟨[], [], [], false⟩, [], [], false, [], [], 0, false⟩, .yes) := by
    simp [step, removeKey, init, locked, del]
  refine ⟨_, (encryptWallet C ⟨⟨[], [], [], false⟩, [], [], false, [], [], 0, false⟩ p m salt 0).1,
    ⟨⟨[(C.pub fresh', ⟨some fresh', none⟩, true)], [], [(1, ⟨C.enc (C.kdf p salt 25000) 0 m, salt, 25000⟩)], true⟩,
      [(C.pub fresh', ⟨some fresh', none⟩)], [], false, [], [(1, ⟨C.enc (C.kdf p salt 25000) 0 m, salt, 25000⟩)], 1, true⟩, e1, ?_⟩
  have e2 : encryptWallet C ⟨⟨[], [], [], false⟩, [], [], false, [], [], 0, false⟩ p m salt 0 =
      (⟨⟨[], [], [(1, ⟨C.enc (C.kdf p salt 25000) 0 m, salt, 25000⟩)], true⟩, [], [], true, [], [(1, ⟨C.enc (C.kdf p salt 25000) 0 m, salt, 25000⟩)], 1, true⟩, .yes) := by
    unfold encryptWallet
    simp only [Bool.false_eq_true, if_false]
    rw [if_pos (by omega), derive_ok p salt hs (by omega)]
    simp only [encryptKeys, List.isEmpty_nil, Bool.not_true, Bool.false_eq_true, if_false]
    rw [relock rfl]
    rfl
  refine ⟨?_, ?_, ?_, rfl, ?_⟩
  · rw [step_encrypt hp (by rw [e2]), e2]
  · rw [e2]
  · rw [e2]
    simp [step, start, load, loadKeys, addKey, badId, put]
  · simp [Usable, opened, getKey, find]

/-! ## Examples: the assumptions can be met -/

theorem toy_kdf : KdfInj toy := fun _ _ _ _ h => h

/-- A new wallet, encrypted: the assumptions of the theorems on encrypted wallets -/
theorem encrypted_example (L : Laws C) {fresh p m salt : Bytes} (hf : fresh.length = 32) (hm : m.length = 32) (hs : salt.length = 8) (hp : p ≠ []) :
    ∃ s, Run C p s ∧ CalmRun C p s ∧ s.crypto = true ∧ locked s = true ∧ Usable C p s fresh := by
  have hr : Run C [] (init C fresh) := .init _ _ hf
  have hsane : Sane C (init C fresh) (.encrypt p m salt 0) := ⟨hm, hs⟩
  have hy : (step C fresh (init C fresh) (.encrypt p m salt 0)).2 = .yes := by
    rw [encrypt_result L hr hsane, if_neg (by rintro (h | h); exact hp h; cases h), if_neg]
    rintro ⟨q, hq, hn⟩
    rw [List.mem_singleton.mp hq] at hn
    cases hn
  have h1 := hr.step fresh _ hsane
  have h2 := (CalmRun.init [] fresh hf : CalmRun C [] _).step fresh _ hsane trivial
  have h3 := keys_kept_partial L hr (fresh := fresh) hsane (x := fresh) (fun h => h) (first_key_usable [] fresh)
  rw [hy] at h1 h2 h3
  have hl := locked_after L hr (fresh := fresh) hsane (Or.inr ⟨⟨_, _, _, _, rfl⟩, hy⟩)
  refine ⟨_, h1, h2, ?_, hl, h3⟩
  simp only [locked, Bool.and_eq_true] at hl
  exact hl.1

/-- and unlocked -/
theorem unlocked_example (L : Laws C) (K : KdfInj C) {fresh p m salt : Bytes} (hf : fresh.length = 32) (hm : m.length = 32) (hs : salt.length = 8) (hp : p ≠ []) :
    ∃ s, Run C p s ∧ s.crypto = true ∧ locked s = false ∧ Usable C p s fresh := by
  obtain ⟨s, h1, _, h3, h4, h5⟩ := encrypted_example L hf hm hs hp
  have hr := h1.step fresh (.unlock p) trivial
  have hy := (unlock_iff L K h1 h3 fresh p hp).mpr rfl
  have hu := keys_kept_partial L h1 (fresh := fresh) (op := .unlock p) trivial (fun h => h) h5
  have hc := stays_encrypted_partial L h1 h3 (fresh := fresh) (op := .unlock p) trivial
  refine ⟨_, hr, hc, ?_, hu⟩
  cases hl : locked (step C fresh s (.unlock p)).1 with
  | false => rfl
  | true =>
    have h6 := ((unlock_effect L K h1 h3 fresh p).2 rfl hp fresh).mpr h5
    rw [locked_gives_no_key hl] at h6
    cases h6

example : ∃ s, Run toy [1, 2] s ∧ s.crypto = true ∧ locked s = false ∧ Usable toy [1, 2] s (List.replicate 32 7) :=
  unlocked_example toy_laws toy_kdf (m := List.replicate 32 9) (salt := List.replicate 8 1) rfl rfl rfl (by decide)

/-- A second key is added to it and the passphrase changed. -/
example : ∃ s s', Run toy [1, 2] s ∧ s' = (step toy [] s (.change [1, 2] [3] 0)).1 ∧ Usable toy [3] s' (List.replicate 32 7) ∧
    (step toy [] s' (.unlock [3])).2 = .yes ∧ (step toy [] s' (.unlock [1, 2])).2 ≠ .yes := by
  obtain ⟨s, h1, h2, h3, h4⟩ := unlocked_example toy_laws toy_kdf (fresh := List.replicate 32 7) (p := [1, 2]) (m := List.replicate 32 9)
    (salt := List.replicate 8 1) rfl rfl rfl (by decide)
  have hy := (change_iff toy_laws toy_kdf h1 h2 [] [1, 2] [3] 0 (by decide) (by decide)).mpr rfl
  have hu := keys_kept_partial toy_laws h1 (fresh := []) (op := .change [1, 2] [3] 0) trivial (fun h => h) h4
  rw [hy] at hu
  refine ⟨s, _, h1, rfl, hu, (changed toy_laws toy_kdf h1 h2 [] _ _ _ 0 hy (by decide)).mpr rfl, ?_⟩
  exact mt (changed toy_laws toy_kdf h1 h2 [] _ _ _ 0 hy (by decide)).mp (by decide)

/-- A mining key for a foreign address (cold mining) is kept by encrypting and restarting. -/
example (y : Bytes) : ∃ s, Run toy [] s ∧ Mines s 5 y ∧ Mines (step toy [] s .restart).1 5 y := by
  have hr : Run toy [] (init toy (List.replicate 32 7)) := .init _ _ rfl
  have hsane : Sane toy (init toy (List.replicate 32 7)) (.add 5 ⟨none, some y⟩) := fun x hx => by cases hx
  have ho : (step toy [] (init toy (List.replicate 32 7)) (.add 5 ⟨none, some y⟩)).2 = .yes := by
    rw [add_result toy_laws hr hsane, if_neg (by simp [locked, init]), if_neg (by rintro ⟨x, hx, _⟩; cases hx), if_neg (by rintro ⟨h, _⟩; cases h)]
  have hm := (mining_key_added toy_laws hr hsane rfl ho).1
  have hr' := hr.step [] _ hsane
  exact ⟨_, hr', hm, mining_keys_kept toy_laws hr' (op := .restart) trivial (fun h => h) hm⟩

end Verif.Wallet
