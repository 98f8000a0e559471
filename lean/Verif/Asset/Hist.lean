import Verif.Asset.Lemmas

/-! Histories: every event is one of a few kinds of change, and what all of them preserve. -/
namespace Verif.Asset

open Verif.Account Verif.Ledger

/-- The event carries the authority of account `o`: a transaction it sent, or a contract call it signed. -/
def Auth : Ev → Ref → Prop
  | .userUpdate _ who _ _, o => who = o
  | .bankMintBurn _ auth _ _ _ _ _, o => auth o = true
  | .bankUpdate _ auth _ _ _, o => auth o = true
  | _, _ => False

/-- Mirrored coins are named `m...`. -/
def Mirrored (s : Sym) : Prop := s.toList.head? = some 'm'

instance (s : Sym) : Decidable (Mirrored s) := inferInstanceAs (Decidable (_ = _))

theorem selfSym_mirrored (p : Sym) : Mirrored (selfSym p) := by
  simp [Mirrored, selfSym]

theorem native_not_mirrored {s : Sym} (h : s ∈ natives) : ¬ Mirrored s := by
  simp only [natives, List.mem_cons, List.not_mem_nil, or_false] at h
  rcases h with rfl | rfl | rfl <;> decide

theorem selfSym_inj {p q : Sym} (h : selfSym p = selfSym q) : p = q := by
  unfold selfSym at h
  have := congrArg String.toList h
  simp at this
  exact String.toList_inj.1 this

/-- No coins appear or disappear. -/
def Quiet (qs : List Req) : Prop := ∀ s, mintedAll s qs = 0 ∧ burnedAll s qs = 0

theorem quiet_nil : Quiet [] := fun _ => ⟨rfl, rfl⟩

/-- The kinds of change a successful event makes. -/
inductive Tr (e : Ev) (st : State) : State → List Req → Prop
  | fee (m qs) (hx : execAll st.mem qs = some m) (hq : ∀ s, s ∉ natives → mintedAll s qs = 0 ∧ burnedAll s qs = 0) :
      Tr e st { st with mem := m } qs
  | adjust (s a a' m qs) (hx : execAll st.mem qs = some m) (hq : Quiet qs) (ha : st.assets s = some a)
      (ht : a'.typ = a.typ) (hs : a'.supply = a.supply) (hm : a'.mintable = a.mintable)
      (ho : a'.owner = a.owner ∨ ∃ o, a.owner = some o ∧ Auth e o) (hn : a.owner = none → a'.owner = none) :
      Tr e st (setAsset { st with mem := m } s a') qs
  | issue (s a' o m qs) (hx : execAll st.mem (qs ++ [⟨o, s, .addFree, a'.supply, none⟩]) = some m) (hq : Quiet qs)
      (ha : st.assets s = none) (hs : ¬ Mirrored s) (hM : a'.supply ≤ MAX) :
      Tr e st (setAsset { st with mem := m, log := st.log ++ [.issue s a'.supply] } s a') (qs ++ [⟨o, s, .addFree, a'.supply, none⟩])
  | mint (s a v r o m qs) (hx : execAll st.mem (⟨r, s, .addFree, v, none⟩ :: qs) = some m) (hq : Quiet qs)
      (ha : st.assets s = some a) (hmi : a.mintable = true) (ho : a.owner = some o) (hau : Auth e o) (hM : a.supply + v ≤ MAX) :
      Tr e st (setAsset { st with mem := m, log := st.log ++ [.mint s v] } s { a with supply := a.supply + v })
        (⟨r, s, .addFree, v, none⟩ :: qs)
  | burn (s a v o m) (hx : execAll st.mem [⟨o, s, .subFree, v, none⟩] = some m)
      (ha : st.assets s = some a) (hmi : a.mintable = true) (ho : a.owner = some o) (hau : Auth e o) (hv : v ≤ a.supply) :
      Tr e st (setAsset { st with mem := m, log := st.log ++ [.burn s v] } s { a with supply := a.supply - v })
        [⟨o, s, .subFree, v, none⟩]
  | coin (w) (ha : st.assets (selfSym w.peer) = none) (hp : st.ps w.peer = none) :
      Tr e st (setSwap (setAsset st (selfSym w.peer) ⟨.dia, defaultPerms, none, 0, false⟩) w) []
  | swap (w w') (hp : st.ps w.peer = some w) (hw : w'.peer = w.peer) :
      Tr e st (setSwap st w') []
  | axcIn (p w txid a v paid m qs) (hp : st.ps p = some w) (ha : st.assets (selfSym w.peer) = some a)
      (hx : execAll st.mem qs = some m)
      (hq : ∀ t, mintedAll t qs = (if t = selfSym w.peer then v else 0) ∧ burnedAll t qs = 0)
      (hn : present (st.mints (w.chain, txid)) = none) (hpaid : paid ≠ 0) (hM : a.supply + v ≤ MAX) :
      Tr e st (setAsset { st with
              mem := m,
              mints := fun k => if k = (w.chain, txid) then some paid else st.mints k,
              log := st.log ++ [.axcIn (selfSym w.peer) w.chain txid v] } (selfSym w.peer) { a with supply := a.supply + v }) qs
  | axcOut (s w a v r m) (hp : st.sp s = some w) (ha : st.assets s = some a)
      (hx : execAll st.mem [⟨r, s, .subFree, v, none⟩] = some m) (hv : v ≤ a.supply) :
      Tr e st (setAsset { st with mem := m, log := st.log ++ [.axcOut s v] } s { a with supply := a.supply - v })
        [⟨r, s, .subFree, v, none⟩]

/-- The accounts of an event lie in `S`; other transactions create and destroy native coins only. -/
def Ev.In (S : Finset Ref) : Ev → Prop
  | .userIssue env who _ owner supply _ _ => env.In S ∧ who ∈ S ∧ owner ∈ S ∧ supply < U64
  | .userUpdate env who _ u => env.In S ∧ who ∈ S ∧ (∀ v, u = .mint v → v < U64)
  | .bankIssue env _ _ owner supply _ _ => env.In S ∧ owner ∈ S ∧ supply < U64
  | .bankMintBurn env _ _ target _ _ _ => env.In S ∧ target ∈ S
  | .bankUpdate _ _ _ _ _ => True
  | .govPerm _ _ => True
  | .govIssue env _ owner supply => env.In S ∧ owner ∈ S ∧ supply < U64
  | .axcCoin _ _ _ _ => True
  | .axcIn env _ _ _ dest amount => env.In S ∧ dest ∈ S ∧ amount < U64
  | .axcOut _ who _ _ amount => who ∈ S ∧ amount < U64
  | .operFee env who fee => env.In S ∧ who ∈ S ∧ fee < U64
  | .other qs => (∀ q ∈ qs, q.Within S) ∧ ∀ s, s ∉ natives → mintedAll s qs = 0 ∧ burnedAll s qs = 0

/-- What an event mints of native coins. -/
def Ev.mint (s : Sym) : Ev → Nat
  | .operFee _ _ fee => if s = WICC then fee else 0
  | .other qs => mintedAll s qs
  | _ => 0

theorem wicc_native : WICC ∈ natives := by decide

theorem charOk_uia_m : charOk .uia 'm' = false := by decide

theorem uia_not_mirrored {b : Bool} {s : Sym} (h : symbolOk b .uia s = true) : ¬ Mirrored s := by
  intro hm
  unfold Mirrored at hm
  unfold symbolOk at h
  simp only [Bool.and_eq_true] at h
  have h2 := h.2
  cases hl : s.toList with
  | nil => rw [hl] at hm; cases hm
  | cons c cs =>
    rw [hl] at hm h2
    simp only [List.head?_cons, Option.some.injEq] at hm
    subst hm
    simp only [List.all_cons, Bool.and_eq_true] at h2
    rw [charOk_uia_m] at h2
    exact absurd h2.1 (by decide)

theorem wadd_supply {x v : Nat} (hx : x ≤ MAX) (hv : v ≤ MAX) : wadd x v = x + v :=
  wadd_eq (by unfold MAX at *; unfold U64; omega)

/-- What the asset records say. -/
structure Inv0 (st : State) : Prop where
  nat : ∀ s ∈ natives, ∃ a, st.assets s = some a ∧ a.owner = none
  mir : ∀ s a, st.assets s = some a → Mirrored s → a.owner = none ∧ a.mintable = false
  cap : ∀ s a, s ∉ natives → st.assets s = some a → a.supply ≤ MAX
  ps : ∀ p w, st.ps p = some w → w.peer = p ∧ ∃ a, st.assets (selfSym p) = some a
  sp : ∀ s w, st.sp s = some w → s = selfSym w.peer

theorem execAll_snoc {m m1 m2 : Mem} {qs : List Req} {q : Req} (h1 : execAll m qs = some m1) (h2 : opBal m1 q = some m2) :
    execAll m (qs ++ [q]) = some m2 := execAll_trans h1 (execAll_one h2)

theorem owner_not_native {st : State} (hI : Inv0 st) {s : Sym} {a : Asset} {o : Ref} (ha : st.assets s = some a)
    (ho : a.owner = some o) : s ∉ natives := by
  intro hn
  obtain ⟨a', h1, h2⟩ := hI.nat s hn
  rw [ha] at h1
  cases h1
  rw [ho] at h2; cases h2

/-- Every successful event is one of the kinds of change. -/
theorem apply_tr {S : Finset Ref} {st st' : State} {e : Ev} (hI : Inv0 st) (hE : e.In S) (h : apply st e = some st') :
    ∃ qs, Tr e st st' qs ∧ (∀ q ∈ qs, q.Within S) ∧ ∀ s ∈ natives, mintedAll s qs = e.mint s := by
  cases e with
  | userIssue env who s owner supply mi ok =>
    obtain ⟨hE, hw, ho, hs⟩ := hE
    simp only [apply, userIssue] at h
    split at h; · cases h
    split at h; · cases h
    split at h; · cases h
    split at h; · cases h
    split at h; · cases h
    split at h; · cases h
    split at h; · cases h
    rename_i hsy _ hsu _ hex _ _ m hm
    split at h; · cases h
    rename_i _ m' hm'
    simp only [Option.some.injEq] at h
    subst h
    have hx := execAll_snoc (assetFee_some hm).2.2 hm'
    have hno : st.assets s = none := by simpa using hex
    refine ⟨_, .issue s ⟨.uia, defaultPerms, some owner, supply, mi⟩ owner m' _ hx (fun t => assetFeeReqs_quiet t) hno
      (uia_not_mirrored (by simpa using hsy)) (by dsimp only; omega), ?_, ?_⟩
    · intro q hq
      simp only [List.mem_append, List.mem_singleton] at hq
      rcases hq with hq | rfl
      · exact assetFeeReqs_within hE hw hE.issueFee q hq
      · exact ⟨ho, fun p e => (by cases e), hs⟩
    · intro t ht
      have hts : s ≠ t := by
        rintro rfl
        obtain ⟨a, h1, _⟩ := hI.nat _ ht
        rw [hno] at h1; cases h1
      simp [(assetFeeReqs_quiet t).1, minted, hts, Ev.mint]
  | userUpdate env who s u =>
    obtain ⟨hE, hw, hv⟩ := hE
    simp only [apply, userUpdate] at h
    split at h; · cases h
    rename_i _ a ha
    split at h; · cases h
    split at h; · cases h
    split at h; · cases h
    rename_i _ _ hown
    have hown : a.owner = some who := by simpa using hown
    have hnn := owner_not_native hI ha hown
    have hauth : Auth (Ev.userUpdate env who s u) who := rfl
    split at h; · cases h
    rename_i _ st1 a1 hu
    -- the fee, if any
    have hfee : ∃ m qs, execAll st1.mem qs = some m ∧ Quiet qs ∧ (∀ q ∈ qs, q.Within S) ∧
        st' = setAsset { st1 with mem := m } s a1 := by
      split at h
      · simp only [Option.some.injEq] at h
        exact ⟨st1.mem, [], rfl, quiet_nil, fun q hq => (by cases hq), by rw [← h]⟩
      · rename_i _ fee hfe
        split at h; · cases h
        rename_i _ m hm
        simp only [Option.some.injEq] at h
        exact ⟨m, _, (assetFee_some hm).2.2, fun t => assetFeeReqs_quiet t, assetFeeReqs_within hE hw (hE.updateFee _ hfe), h.symm⟩
    obtain ⟨m, qs, hx, hq, hin, rfl⟩ := hfee
    cases u with
    | owner r =>
      simp only [applyUpd] at hu
      split at hu; · cases hu
      split at hu; · cases hu
      simp only [Option.some.injEq, Prod.mk.injEq] at hu
      obtain ⟨rfl, rfl⟩ := hu
      exact ⟨qs, .adjust s a _ m qs hx hq ha rfl rfl rfl (Or.inr ⟨who, hown, hauth⟩) (fun hn => by rw [hown] at hn; cases hn), hin,
        fun t _ => (hq t).1⟩
    | name ok =>
      simp only [applyUpd] at hu
      split at hu
      · simp only [Option.some.injEq, Prod.mk.injEq] at hu
        obtain ⟨rfl, rfl⟩ := hu
        exact ⟨qs, .adjust s a _ m qs hx hq ha rfl rfl rfl (Or.inl rfl) id, hin, fun t _ => (hq t).1⟩
      · cases hu
    | mint v =>
      simp only [applyUpd] at hu
      split at hu; · cases hu
      split at hu; · cases hu
      split at hu; · cases hu
      split at hu; · cases hu
      rename_i hv1 hmi hv2 _ m1 hm1
      simp only [Option.some.injEq, Prod.mk.injEq] at hu
      obtain ⟨rfl, rfl⟩ := hu
      have hcap := hI.cap s a hnn ha
      have hwa := wadd_supply (v := v) hcap (by omega)
      rw [hwa] at hv2 ⊢
      refine ⟨_, .mint s a v who who m qs (execAll_of_opBal hm1 hx) hq ha (by simpa using hmi) hown hauth (by omega), ?_, ?_⟩
      · intro q hq'
        simp only [List.mem_cons] at hq'
        rcases hq' with rfl | hq'
        · exact ⟨hw, fun p e => (by cases e), hv v rfl⟩
        · exact hin q hq'
      · intro t ht
        have hts : s ≠ t := by rintro rfl; exact hnn ht
        simp [(hq t).1, minted, hts, Ev.mint]
  | bankIssue env auth s owner supply mi ok =>
    obtain ⟨hE, ho, hs⟩ := hE
    simp only [apply, bankIssue] at h
    split at h; · cases h
    split at h; · cases h
    split at h; · cases h
    split at h; · cases h
    split at h; · cases h
    split at h; · cases h
    rename_i hsy _ hex _ _ _ m hm
    split at h; · cases h
    rename_i hsu
    split at h; · cases h
    rename_i _ m' hm'
    simp only [Option.some.injEq] at h
    subst h
    have hx := execAll_snoc (assetFee_some hm).2.2 hm'
    have hno : st.assets s = none := by simpa using hex
    refine ⟨_, .issue s ⟨.uia, defaultPerms, some owner, supply, mi⟩ owner m' _ hx (fun t => assetFeeReqs_quiet t) hno
      (uia_not_mirrored (by simpa using hsy)) (by dsimp only; omega), ?_, ?_⟩
    · intro q hq
      simp only [List.mem_append, List.mem_singleton] at hq
      rcases hq with hq | rfl
      · exact assetFeeReqs_within hE ho hE.issueFee q hq
      · exact ⟨ho, fun p e => (by cases e), hs⟩
    · intro t ht
      have hts : s ≠ t := by
        rintro rfl
        obtain ⟨a, h1, _⟩ := hI.nat _ ht
        rw [hno] at h1; cases h1
      simp [(assetFeeReqs_quiet t).1, minted, hts, Ev.mint]
  | bankMintBurn env auth mint target s v ok =>
    obtain ⟨hE, hta⟩ := hE
    simp only [apply, bankMintBurn] at h
    split at h; · cases h
    rename_i hv0
    split at h; · cases h
    rename_i _ a ha
    split at h; · cases h
    rename_i hmi
    split at h; · cases h
    rename_i _ o hown
    split at h; · cases h
    split at h; · cases h
    rename_i _ hau
    split at h; · cases h
    split at h; · cases h
    have hnn := owner_not_native hI ha hown
    have hcap := hI.cap s a hnn ha
    have hv1 : v < U64 := by
      have : (2:Nat) ^ 62 < U64 := by decide
      omega
    have hauth : Auth (Ev.bankMintBurn env auth mint target s v ok) o := by simpa [Auth] using hau
    split at h
    · split at h; · cases h
      rename_i hv2
      split at h; · cases h
      rename_i _ m hm
      simp only [Option.some.injEq] at h
      subst h
      have hwa : wadd a.supply v = a.supply + v := wadd_supply hcap (by
        have : (2:Nat) ^ 62 ≤ MAX := by decide
        omega)
      rw [hwa] at hv2 ⊢
      refine ⟨_, .mint s a v target o m [] (execAll_one hm) quiet_nil ha (by simpa using hmi) hown hauth (by omega), ?_, ?_⟩
      · intro q hq
        simp only [List.mem_singleton] at hq
        subst hq
        exact ⟨hta, fun p e => (by cases e), hv1⟩
      · intro t ht
        have hts : s ≠ t := by rintro rfl; exact hnn ht
        simp [minted, hts, Ev.mint]
    · split at h; · cases h
      rename_i hto
      have hto : target = o := by simpa using hto
      subst hto
      split at h; · cases h
      rename_i hv2
      split at h; · cases h
      rename_i _ m hm
      simp only [Option.some.injEq] at h
      subst h
      have hws : wsub a.supply v = a.supply - v := wsub_eq (by omega) (by unfold MAX at hcap; unfold U64; omega)
      rw [hws]
      refine ⟨_, .burn s a v target m (execAll_one hm) ha (by simpa using hmi) hown hauth (by omega), ?_, ?_⟩
      · intro q hq
        simp only [List.mem_singleton] at hq
        subst hq
        exact ⟨hta, fun p e => (by cases e), hv1⟩
      · intro t ht
        simp [minted, Ev.mint]
  | bankUpdate env auth s no ok =>
    simp only [apply, bankUpdate] at h
    split at h; · cases h
    rename_i _ a ha
    split at h; · cases h
    rename_i _ o hown
    split at h; · cases h
    rename_i hau
    split at h; · cases h
    split at h; · cases h
    have hauth : Auth (Ev.bankUpdate env auth s no ok) o := by simpa [Auth] using hau
    split at h
    · simp only [Option.some.injEq] at h
      subst h
      exact ⟨[], .adjust s a a st.mem [] rfl quiet_nil ha rfl rfl rfl (Or.inl rfl) id, fun q hq => (by cases hq), fun _ _ => rfl⟩
    · split at h
      · simp only [Option.some.injEq] at h
        subst h
        exact ⟨[], .adjust s a _ st.mem [] rfl quiet_nil ha rfl rfl rfl (Or.inr ⟨o, hown, hauth⟩)
          (fun hn => by rw [hown] at hn; cases hn), fun q hq => (by cases hq), fun _ _ => rfl⟩
      · cases h
  | govPerm s p =>
    simp only [apply, govPerm] at h
    split at h; · cases h
    rename_i _ a ha
    split at h; · cases h
    split at h; · cases h
    simp only [Option.some.injEq] at h
    subst h
    exact ⟨[], .adjust s a _ st.mem [] rfl quiet_nil ha rfl rfl rfl (Or.inl rfl) id, fun q hq => (by cases hq), fun _ _ => rfl⟩
  | govIssue env s owner supply =>
    obtain ⟨hE, ho, hs⟩ := hE
    simp only [apply, govIssue] at h
    split at h; · cases h
    split at h; · cases h
    split at h; · cases h
    split at h; · cases h
    split at h; · cases h
    split at h; · cases h
    rename_i _ hmir hsu _ hex _ m hm
    simp only [Option.some.injEq] at h
    subst h
    have hno : st.assets s = none := by simpa using hex
    refine ⟨_, .issue s ⟨.dia, defaultPerms, some owner, supply, true⟩ owner m [] (execAll_one hm) quiet_nil hno hmir
      (by dsimp only; omega), ?_, ?_⟩
    · intro q hq
      simp only [List.nil_append, List.mem_singleton] at hq
      subst hq
      exact ⟨ho, fun p e => (by cases e), hs⟩
    · intro t ht
      have hts : s ≠ t := by
        rintro rfl
        obtain ⟨a, h1, _⟩ := hI.nat _ ht
        rw [hno] at h1; cases h1
      simp [minted, hts, Ev.mint]
  | axcCoin env peer chain op =>
    simp only [apply, axcCoin] at h
    split at h; · cases h
    split at h; · cases h
    rename_i _ hok
    split at h; · cases h
    split at h; · cases h
    split at h; · cases h
    split at h
    · rename_i _ hps
      simp only [Option.some.injEq] at h
      subst h
      have : st.assets (selfSym peer) = none := by
        simp only [axcCoinOk, hps] at hok
        simp only [Bool.not_eq_true, Bool.not_eq_false', Bool.and_eq_true, Option.isNone_iff_eq_none] at hok
        simpa using hok.2
      exact ⟨[], .coin ⟨op, peer, chain⟩ this hps, fun q hq => (by cases hq), fun _ _ => rfl⟩
    · rename_i _ w hps
      simp only [Option.some.injEq] at h
      subst h
      have hpe := (hI.ps peer w hps).1
      exact ⟨[], .swap w _ (by rw [hpe]; exact hps) rfl, fun q hq => (by cases hq), fun _ _ => rfl⟩
  | axcIn env peer al txid dest amount =>
    obtain ⟨hE, hde, ham⟩ := hE
    simp only [apply, axcIn] at h
    cases hps : st.ps peer with
    | none => rw [hps] at h; cases h
    | some w =>
    simp only [hps, Option.ite_none_left_eq_some] at h
    obtain ⟨_, _, _, hdust, hmax, hrec, h⟩ := h
    cases ha : st.assets (selfSym w.peer) with
    | none => rw [ha] at h; cases h
    | some a =>
    simp only [ha, Option.ite_none_left_eq_some] at h
    obtain ⟨hsup, _, _, _, h⟩ := h
    cases hm : execAll st.mem (axcInReqs env (selfSym w.peer) dest (swapFee env.axcRatio amount) amount) with
    | none => rw [hm] at h; cases h
    | some m =>
    rw [hm] at h
    simp only [Option.some.injEq] at h
    subst h
    have hnn : selfSym w.peer ∉ natives := fun hn => native_not_mirrored hn (selfSym_mirrored _)
    have hcap := hI.cap _ a hnn ha
    have hwa := wadd_supply (v := amount) hcap (by omega)
    have hd0 : amount ≠ 0 := by unfold DUST at hdust; omega
    have hfee := swapFee_le (ratio := env.axcRatio) hE.axcRatio hd0
    have hws : wsub amount (swapFee env.axcRatio amount) = amount - swapFee env.axcRatio amount := wsub_eq (by omega) ham
    have hq := fun t => axcInReqs_flow (env := env) (s := selfSym w.peer) (dest := dest)
      (fee := swapFee env.axcRatio amount) (amount := amount) (by omega) ham t
    rw [hwa] at hsup ⊢
    refine ⟨_, .axcIn peer w txid a amount _ m _ hps ha hm hq (by simpa using hrec) (by rw [hws]; omega) (by omega), ?_, ?_⟩
    · exact axcInReqs_within hE hde (by omega)
    · intro t ht
      rw [(hq t).1, if_neg (by rintro rfl; exact hnn ht)]; rfl
  | axcOut env who s al amount =>
    obtain ⟨hw, ham⟩ := hE
    simp only [apply, axcOut] at h
    split at h; · cases h
    rename_i _ w hsp
    split at h; · cases h
    split at h; · cases h
    split at h; · cases h
    split at h; · cases h
    split at h; · cases h
    split at h; · cases h
    split at h; · cases h
    rename_i _ m hm
    split at h; · cases h
    rename_i _ a ha
    split at h; · cases h
    rename_i hle
    simp only [Option.some.injEq] at h
    subst h
    have hnn : s ∉ natives := fun hn => native_not_mirrored hn (by rw [hI.sp s w hsp]; exact selfSym_mirrored _)
    have hcap := hI.cap _ a hnn ha
    have hws : wsub a.supply amount = a.supply - amount := wsub_eq (by omega) (by unfold MAX at hcap; unfold U64; omega)
    rw [hws]
    refine ⟨_, .axcOut s w a amount who m hsp ha (execAll_one hm) (by omega), ?_, ?_⟩
    · intro q hq
      simp only [List.mem_singleton] at hq
      subst hq
      exact ⟨hw, fun p e => (by cases e), ham⟩
    · intro t ht
      simp [minted, Ev.mint]
  | operFee env who fee =>
    obtain ⟨hE, hw, hf⟩ := hE
    simp only [apply] at h
    cases hm : operFee env st.mem who fee with
    | none => rw [hm] at h; cases h
    | some m =>
      rw [hm] at h
      simp only [Option.map_some, Option.some.injEq] at h
      subst h
      obtain ⟨hd, hx⟩ := operFee_some hm
      have hfl := operFeeReqs_flow (src := who) hE hf hd
      refine ⟨_, .fee m _ hx (fun s hs => ?_), operFeeReqs_within hE hw hf, fun t _ => (hfl t).1⟩
      have : s ≠ WICC := by rintro rfl; exact hs wicc_native
      have := hfl s
      simp_all
  | other qs =>
    obtain ⟨hin, hq⟩ := hE
    simp only [apply] at h
    cases hm : execAll st.mem qs with
    | none => rw [hm] at h; cases h
    | some m =>
      rw [hm] at h
      simp only [Option.map_some, Option.some.injEq] at h
      subst h
      exact ⟨qs, .fee m _ hm hq, hin, fun _ _ => rfl⟩

end Verif.Asset
