import Verif.Asset.Hist

/-! What every history of asset events preserves. -/
namespace Verif.Asset

open Verif.Account Verif.Ledger

/-- Recorded supply; zero while the asset does not exist. -/
def sup (st : State) (s : Sym) : Nat :=
  match st.assets s with
  | none => 0
  | some a => a.supply

/-- What an entry of the log created / destroyed of `s`. -/
def Done.into (s : Sym) : Done → Nat
  | .issue t v => if t = s then v else 0
  | .mint t v => if t = s then v else 0
  | .axcIn t _ _ v => if t = s then v else 0
  | _ => 0

def Done.out (s : Sym) : Done → Nat
  | .burn t v => if t = s then v else 0
  | .axcOut t v => if t = s then v else 0
  | _ => 0

def created (s : Sym) (l : List Done) : Nat := (l.map (Done.into s)).sum
def destroyed (s : Sym) (l : List Done) : Nat := (l.map (Done.out s)).sum

/-- The foreign transactions paid out so far. -/
def Done.key : Done → Option (Nat × String)
  | .axcIn _ c t _ => some (c, t)
  | _ => none

def swapped (l : List Done) : List (Nat × String) := l.filterMap Done.key

/-- The symbols issued so far. -/
def Done.sym : Done → Option Sym
  | .issue s _ => some s
  | _ => none

def issuedSyms (l : List Done) : List Sym := l.filterMap Done.sym

/-- Mirrored coins change by swaps only, and swaps change mirrored coins only. -/
def Done.ok : Done → Prop
  | .issue s _ => ¬ Mirrored s
  | .mint s _ => ¬ Mirrored s
  | .burn s _ => ¬ Mirrored s
  | .axcIn s _ _ _ => Mirrored s
  | .axcOut s _ => Mirrored s

structure Inv (S : Finset Ref) (st : State) : Prop where
  base : Inv0 st
  wf : WF st.mem
  tot : ∀ s, s ∉ natives → total st.mem s S = sup st s
  log : ∀ s, s ∉ natives → sup st s + destroyed s st.log = created s st.log
  keysN : (swapped st.log).Nodup
  keysR : ∀ k ∈ swapped st.log, ∃ v, st.mints k = some v ∧ v ≠ 0
  symsN : (issuedSyms st.log).Nodup
  symsP : ∀ s ∈ issuedSyms st.log, st.assets s ≠ none
  logOk : ∀ d ∈ st.log, d.ok

/-! ## The records -/

theorem setAsset_same (st : State) (s : Sym) (a : Asset) : (setAsset st s a).assets s = some a := by simp [setAsset]

theorem setAsset_other (st : State) {s t : Sym} (a : Asset) (h : t ≠ s) : (setAsset st s a).assets t = st.assets t := by
  simp [setAsset, h]

theorem inv0_set {st st1 : State} {s : Sym} {a' : Asset} (hI : Inv0 st) (e1 : st1.assets = st.assets) (e2 : st1.ps = st.ps)
    (e3 : st1.sp = st.sp) (hn : s ∈ natives → a'.owner = none) (hm : Mirrored s → a'.owner = none ∧ a'.mintable = false)
    (hc : s ∉ natives → a'.supply ≤ MAX) : Inv0 (setAsset st1 s a') := by
  refine ⟨fun t ht => ?_, fun t a ha hmi => ?_, fun t a ht ha => ?_, fun p w hp => ?_, fun t w hs => ?_⟩
  · by_cases h : t = s
    · subst h; exact ⟨a', setAsset_same _ _ _, hn ht⟩
    · rw [setAsset_other _ _ h, e1]; exact hI.nat t ht
  · by_cases h : t = s
    · subst h; rw [setAsset_same] at ha; cases ha; exact hm hmi
    · rw [setAsset_other _ _ h, e1] at ha; exact hI.mir t a ha hmi
  · by_cases h : t = s
    · subst h; rw [setAsset_same] at ha; cases ha; exact hc ht
    · rw [setAsset_other _ _ h, e1] at ha; exact hI.cap t a ht ha
  · have hp' : st.ps p = some w := by rw [← e2]; exact hp
    obtain ⟨h1, a, h2⟩ := hI.ps p w hp'
    refine ⟨h1, ?_⟩
    by_cases h : selfSym p = s
    · exact ⟨a', by rw [h, setAsset_same]⟩
    · exact ⟨a, by rw [setAsset_other _ _ h, e1]; exact h2⟩
  · exact hI.sp t w (by rw [← e3]; exact hs)

theorem inv0_swap {st : State} {w : Swap} (hI : Inv0 st) (ha : ∃ a, st.assets (selfSym w.peer) = some a) :
    Inv0 (setSwap st w) := by
  refine ⟨hI.nat, hI.mir, hI.cap, fun p w' hp => ?_, fun t w' hs => ?_⟩
  · simp only [setSwap] at hp
    split at hp
    · rename_i h
      simp only [Option.some.injEq] at hp
      subst hp
      exact ⟨h.symm, by rw [h]; exact ha⟩
    · exact hI.ps p w' hp
  · simp only [setSwap] at hs
    split at hs
    · rename_i h
      simp only [Option.some.injEq] at hs
      subst hs
      exact h
    · exact hI.sp t w' hs

theorem tr_inv0 {e : Ev} {st st' : State} {qs : List Req} (hI : Inv0 st) (h : Tr e st st' qs) : Inv0 st' := by
  cases h with
  | fee m _ hx hq => exact ⟨hI.nat, hI.mir, hI.cap, hI.ps, hI.sp⟩
  | adjust s a a' m _ hx hq ha ht hs hm ho hn =>
    refine inv0_set (st := st) hI rfl rfl rfl (fun hna => ?_) (fun hmi => ?_) (fun hna => by rw [hs]; exact hI.cap s a hna ha)
    · obtain ⟨x, h1, h2⟩ := hI.nat s hna
      rw [ha] at h1; cases h1; exact hn h2
    · obtain ⟨h1, h2⟩ := hI.mir s a ha hmi
      exact ⟨hn h1, by rw [hm]; exact h2⟩
  | issue s a' o m qs hx hq ha hs hM =>
    refine inv0_set (st := st) hI rfl rfl rfl (fun hna => ?_) (fun hmi => absurd hmi hs) (fun _ => hM)
    obtain ⟨x, h1, h2⟩ := hI.nat s hna
    rw [ha] at h1; cases h1
  | mint s a v r o m qs hx hq ha hmi ho hau hM =>
    refine inv0_set (st := st) hI rfl rfl rfl (fun hna => ?_) (fun hmir => ?_) (fun _ => hM)
    · exact absurd hna (owner_not_native hI ha ho)
    · have := hI.mir s a ha hmir; exact this
  | burn s a v o m hx ha hmi ho hau hv =>
    refine inv0_set (st := st) hI rfl rfl rfl (fun hna => ?_) (fun hmir => ?_) (fun hna => ?_)
    · exact absurd hna (owner_not_native hI ha ho)
    · have := hI.mir s a ha hmir; exact this
    · have := hI.cap s a hna ha; dsimp only; omega
  | coin w ha hp =>
    have := inv0_set (st := st) (s := selfSym w.peer) (a' := ⟨.dia, defaultPerms, none, 0, false⟩) hI rfl rfl rfl
      (fun _ => rfl) (fun _ => ⟨rfl, rfl⟩) (fun _ => Nat.zero_le _)
    exact inv0_swap this ⟨_, setAsset_same _ _ _⟩
  | swap w w' hp hw =>
    refine inv0_swap hI ?_
    rw [hw]
    exact (hI.ps _ w hp).2
  | axcIn p w txid a v paid m _ hp ha hx hq hn hpaid hM =>
    refine inv0_set (st := st) hI rfl rfl rfl (fun hna => ?_) (fun hmir => ?_) (fun _ => hM)
    · exact absurd (selfSym_mirrored _) (native_not_mirrored hna)
    · have := hI.mir _ a ha hmir; exact this
  | axcOut s w a v r m hp ha hx hv =>
    have hmir : Mirrored s := by rw [hI.sp s w hp]; exact selfSym_mirrored _
    refine inv0_set (st := st) hI rfl rfl rfl (fun hna => absurd hmir (native_not_mirrored hna)) (fun _ => ?_) (fun hna => ?_)
    · have := hI.mir _ a ha hmir; exact this
    · have := hI.cap s a hna ha; dsimp only; omega

/-! ## Supply against balances -/

theorem sup_of {st : State} {s : Sym} {a : Asset} (h : st.assets s = some a) : sup st s = a.supply := by simp [sup, h]

theorem sup_none {st : State} {s : Sym} (h : st.assets s = none) : sup st s = 0 := by simp [sup, h]

theorem sup_set_same (st : State) (s : Sym) (a : Asset) : sup (setAsset st s a) s = a.supply := by
  simp [sup, setAsset]

theorem sup_set_other (st : State) {s t : Sym} (a : Asset) (h : t ≠ s) : sup (setAsset st s a) t = sup st t := by
  simp [sup, setAsset, h]

theorem sup_swap (st : State) (w : Swap) (t : Sym) : sup (setSwap st w) t = sup st t := rfl

/-- The balance operations of a change create and destroy what the supply gains and loses, and so does the log. -/
theorem tr_supply {e : Ev} {st st' : State} {qs : List Req} (hI : Inv0 st) (h : Tr e st st' qs) :
    execAll st.mem qs = some st'.mem ∧ ∀ s, s ∉ natives →
      sup st' s + burnedAll s qs = sup st s + mintedAll s qs ∧ mintedAll s qs ≤ MAX ∧
      ∃ l, st'.log = st.log ++ l ∧ mintedAll s qs = created s l ∧ burnedAll s qs = destroyed s l := by
  cases h with
  | fee m _ hx hq =>
    refine ⟨hx, fun s hs => ?_⟩
    obtain ⟨h1, h2⟩ := hq s hs
    exact ⟨by rw [h1, h2]; rfl, by omega, [], by simp, by simp [h1, created], by simp [h2, destroyed]⟩
  | adjust s a a' m _ hx hq ha ht hs hm ho hn =>
    refine ⟨hx, fun t ht' => ?_⟩
    obtain ⟨h1, h2⟩ := hq t
    refine ⟨?_, by omega, [], by simp [setAsset], by simp [h1, created], by simp [h2, destroyed]⟩
    rw [h1, h2]
    by_cases h : t = s
    · subst h; rw [sup_set_same, sup_of ha, hs]
    · rw [sup_set_other _ _ h]; rfl
  | issue s a' o m qs hx hq ha hs hM =>
    refine ⟨hx, fun t ht' => ?_⟩
    obtain ⟨h1, h2⟩ := hq t
    refine ⟨?_, ?_, [.issue s a'.supply], rfl, ?_, ?_⟩
    · by_cases h : t = s
      · subst h; rw [sup_set_same, sup_none ha]; simp [h1, h2, minted, burned]
      · rw [sup_set_other _ _ h]; simp [h1, h2, minted, burned, Ne.symm h]; rfl
    · simp only [mintedAll_append, h1, mintedAll_cons, mintedAll_nil, minted]; split <;> simp_all
    · simp [h1, minted, created, Done.into]
    · simp [h2, burned, destroyed, Done.out]
  | mint s a v r o m qs hx hq ha hmi ho hau hM =>
    refine ⟨hx, fun t ht' => ?_⟩
    obtain ⟨h1, h2⟩ := hq t
    refine ⟨?_, ?_, [.mint s v], rfl, ?_, ?_⟩
    · by_cases h : t = s
      · subst h; rw [sup_set_same, sup_of ha]; simp [h1, h2, minted, burned]
      · rw [sup_set_other _ _ h]; simp [h1, h2, minted, burned, Ne.symm h]; rfl
    · simp only [h1, mintedAll_cons, minted]; split <;> omega
    · simp [h1, minted, created, Done.into]
    · simp [h2, burned, destroyed, Done.out]
  | burn s a v o m hx ha hmi ho hau hv =>
    refine ⟨hx, fun t ht' => ?_⟩
    refine ⟨?_, ?_, [.burn s v], rfl, ?_, ?_⟩
    · by_cases h : t = s
      · subst h; rw [sup_set_same, sup_of ha]; simp [minted, burned]; omega
      · rw [sup_set_other _ _ h]; simp [minted, burned, Ne.symm h]; rfl
    · simp [minted]
    · simp [minted, created, Done.into]
    · simp [burned, destroyed, Done.out]
  | coin w ha hp =>
    refine ⟨rfl, fun t ht' => ⟨?_, by simp, [], by simp [setSwap, setAsset], rfl, rfl⟩⟩
    rw [sup_swap]
    by_cases h : t = selfSym w.peer
    · subst h; rw [sup_set_same, sup_none ha]; simp
    · rw [sup_set_other _ _ h]; simp
  | swap w w' hp hw =>
    exact ⟨rfl, fun t ht' => ⟨by rw [sup_swap]; simp, by simp, [], by simp [setSwap], rfl, rfl⟩⟩
  | axcIn p w txid a v paid m _ hp ha hx hq hn hpaid hM =>
    refine ⟨hx, fun t ht' => ?_⟩
    obtain ⟨h1, h2⟩ := hq t
    refine ⟨?_, ?_, [.axcIn (selfSym w.peer) w.chain txid v], rfl, ?_, ?_⟩
    · by_cases h : t = selfSym w.peer
      · subst h; rw [sup_set_same, sup_of ha, h1, h2, if_pos rfl]; rfl
      · rw [sup_set_other _ _ h, h1, h2, if_neg h]; rfl
    · rw [h1]; split <;> omega
    · rw [h1]; simp [created, Done.into, eq_comm]
    · rw [h2]; simp [destroyed, Done.out]
  | axcOut s w a v r m hp ha hx hv =>
    refine ⟨hx, fun t ht' => ?_⟩
    refine ⟨?_, ?_, [.axcOut s v], rfl, ?_, ?_⟩
    · by_cases h : t = s
      · subst h; rw [sup_set_same, sup_of ha]; simp [minted, burned]; omega
      · rw [sup_set_other _ _ h]; simp [minted, burned, Ne.symm h]; rfl
    · simp [minted]
    · simp [minted, created, Done.into]
    · simp [burned, destroyed, Done.out]

/-! ## The log -/

theorem created_append (s : Sym) (a b : List Done) : created s (a ++ b) = created s a + created s b := by simp [created]
theorem destroyed_append (s : Sym) (a b : List Done) : destroyed s (a ++ b) = destroyed s a + destroyed s b := by simp [destroyed]
theorem swapped_append (a b : List Done) : swapped (a ++ b) = swapped a ++ swapped b := by simp [swapped]
theorem issuedSyms_append (a b : List Done) : issuedSyms (a ++ b) = issuedSyms a ++ issuedSyms b := by simp [issuedSyms]

/-- The parts of the invariant about the log. -/
structure LogInv (st : State) : Prop where
  keysN : (swapped st.log).Nodup
  keysR : ∀ k ∈ swapped st.log, ∃ v, st.mints k = some v ∧ v ≠ 0
  symsN : (issuedSyms st.log).Nodup
  symsP : ∀ s ∈ issuedSyms st.log, st.assets s ≠ none
  logOk : ∀ d ∈ st.log, d.ok

/-- An entry that is neither an issue nor a swap. -/
theorem logInv_plain {st st' : State} {d : List Done} (hL : LogInv st) (e : st'.log = st.log ++ d) (hm : st'.mints = st.mints)
    (ha : ∀ s, st.assets s ≠ none → st'.assets s ≠ none) (hd : ∀ x ∈ d, x.ok ∧ x.key = none ∧ x.sym = none) : LogInv st' := by
  have h1 : swapped d = [] := by
    unfold swapped; rw [List.filterMap_eq_nil_iff]; exact fun x hx => (hd x hx).2.1
  have h2 : issuedSyms d = [] := by
    unfold issuedSyms; rw [List.filterMap_eq_nil_iff]; exact fun x hx => (hd x hx).2.2
  have e1 : swapped st'.log = swapped st.log := by rw [e, swapped_append, h1, List.append_nil]
  have e2 : issuedSyms st'.log = issuedSyms st.log := by rw [e, issuedSyms_append, h2, List.append_nil]
  refine ⟨by rw [e1]; exact hL.keysN, by rw [e1, hm]; exact hL.keysR, by rw [e2]; exact hL.symsN,
    by rw [e2]; exact fun s hs => ha s (hL.symsP s hs), ?_⟩
  intro x hx
  rw [e, List.mem_append] at hx
  rcases hx with hx | hx
  · exact hL.logOk x hx
  · exact (hd x hx).1

theorem setAsset_keeps {st : State} {s : Sym} {a : Asset} (t : Sym) (h : st.assets t ≠ none) : (setAsset st s a).assets t ≠ none := by
  by_cases e : t = s
  · subst e; rw [setAsset_same]; simp
  · rw [setAsset_other _ _ e]; exact h

theorem tr_log {e : Ev} {st st' : State} {qs : List Req} (hI : Inv0 st) (hL : LogInv st) (h : Tr e st st' qs) : LogInv st' := by
  cases h with
  | fee m _ hx hq => exact logInv_plain (d := []) hL (by simp) rfl (fun s h => h) (by simp)
  | adjust s a a' m _ hx hq ha ht hs hm ho hn =>
    exact logInv_plain (d := []) hL (by simp [setAsset]) rfl (fun t h => setAsset_keeps t h) (by simp)
  | issue s a' o m qs hx hq ha hs hM =>
    have hk : issuedSyms (st.log ++ [Done.issue s a'.supply]) = issuedSyms st.log ++ [s] := by
      rw [issuedSyms_append]; rfl
    have hk2 : swapped (st.log ++ [Done.issue s a'.supply]) = swapped st.log := by
      rw [swapped_append]; simp [swapped, Done.key]
    refine ⟨?_, ?_, ?_, ?_, ?_⟩
    · show (swapped (st.log ++ [_])).Nodup
      rw [hk2]; exact hL.keysN
    · show ∀ k ∈ swapped (st.log ++ [_]), _
      rw [hk2]; exact hL.keysR
    · show (issuedSyms (st.log ++ [_])).Nodup
      rw [hk, List.nodup_append]
      refine ⟨hL.symsN, by simp, ?_⟩
      intro x hx' y hy
      simp only [List.mem_singleton] at hy
      subst hy
      rintro rfl
      exact hL.symsP _ hx' ha
    · show ∀ k ∈ issuedSyms (st.log ++ [_]), _
      rw [hk]
      intro k hk'
      simp only [List.mem_append, List.mem_singleton] at hk'
      rcases hk' with hk' | rfl
      · exact setAsset_keeps k (hL.symsP k hk')
      · rw [setAsset_same]; simp
    · intro d hd
      have hd : d ∈ st.log ++ [Done.issue s a'.supply] := hd
      simp only [List.mem_append, List.mem_singleton] at hd
      rcases hd with hd | rfl
      · exact hL.logOk d hd
      · exact hs
  | mint s a v r o m qs hx hq ha hmi ho hau hM =>
    refine logInv_plain (d := [.mint s v]) hL rfl rfl (fun t h => setAsset_keeps t h) ?_
    intro x hx'
    simp only [List.mem_singleton] at hx'
    subst hx'
    exact ⟨fun hmir => (by rw [(hI.mir s a ha hmir).1] at ho; cases ho), rfl, rfl⟩
  | burn s a v o m hx ha hmi ho hau hv =>
    refine logInv_plain (d := [.burn s v]) hL rfl rfl (fun t h => setAsset_keeps t h) ?_
    intro x hx'
    simp only [List.mem_singleton] at hx'
    subst hx'
    exact ⟨fun hmir => (by rw [(hI.mir s a ha hmir).1] at ho; cases ho), rfl, rfl⟩
  | coin w ha hp =>
    exact logInv_plain (d := []) hL (by simp [setAsset, setSwap]) rfl
      (fun t h => setAsset_keeps (st := st) (s := selfSym w.peer) t h) (by simp)
  | swap w w' hp hw => exact logInv_plain (d := []) hL (by simp [setSwap]) rfl (fun t h => h) (by simp)
  | axcIn p w txid a v paid m _ hp ha hx hq hn hpaid hM =>
    have hk : swapped (st.log ++ [Done.axcIn (selfSym w.peer) w.chain txid v]) = swapped st.log ++ [(w.chain, txid)] := by
      rw [swapped_append]; rfl
    have hk2 : issuedSyms (st.log ++ [Done.axcIn (selfSym w.peer) w.chain txid v]) = issuedSyms st.log := by
      rw [issuedSyms_append]; simp [issuedSyms, Done.sym]
    have hnew : (w.chain, txid) ∉ swapped st.log := by
      intro hmem
      obtain ⟨v', h1, h2⟩ := hL.keysR _ hmem
      rw [h1] at hn
      simp [present, h2] at hn
    refine ⟨?_, ?_, ?_, ?_, ?_⟩
    · show (swapped (st.log ++ [_])).Nodup
      rw [hk, List.nodup_append]
      refine ⟨hL.keysN, by simp, ?_⟩
      intro x hx' y hy
      simp only [List.mem_singleton] at hy
      subst hy
      rintro rfl
      exact hnew hx'
    · show ∀ k ∈ swapped (st.log ++ [_]), _
      rw [hk]
      intro k hk'
      simp only [List.mem_append, List.mem_singleton] at hk'
      rcases hk' with hk' | rfl
      · obtain ⟨v', h1, h2⟩ := hL.keysR _ hk'
        refine ⟨v', ?_, h2⟩
        have : k ≠ (w.chain, txid) := by rintro rfl; exact hnew hk'
        simp [setAsset, this, h1]
      · exact ⟨paid, by simp [setAsset], hpaid⟩
    · show (issuedSyms (st.log ++ [_])).Nodup
      rw [hk2]; exact hL.symsN
    · show ∀ k ∈ issuedSyms (st.log ++ [_]), _
      rw [hk2]; exact fun k hk' => setAsset_keeps k (hL.symsP k hk')
    · intro d hd
      have hd : d ∈ st.log ++ [Done.axcIn (selfSym w.peer) w.chain txid v] := hd
      simp only [List.mem_append, List.mem_singleton] at hd
      rcases hd with hd | rfl
      · exact hL.logOk d hd
      · exact selfSym_mirrored _
  | axcOut s w a v r m hp ha hx hv =>
    refine logInv_plain (d := [.axcOut s v]) hL rfl rfl (fun t h => setAsset_keeps t h) ?_
    intro x hx'
    simp only [List.mem_singleton] at hx'
    subst hx'
    refine ⟨?_, rfl, rfl⟩
    show Mirrored s
    rw [hI.sp s w hp]; exact selfSym_mirrored _

/-! ## Histories -/

theorem apply_inv {S : Finset Ref} {st st' : State} {e : Ev} (hI : Inv S st) (hE : e.In S)
    (hB : ∀ s ∈ natives, total st.mem s S + e.mint s < U64) (h : apply st e = some st') :
    Inv S st' ∧ ∀ s ∈ natives, total st'.mem s S ≤ total st.mem s S + e.mint s := by
  obtain ⟨qs, htr, hin, hmint⟩ := apply_tr hI.base hE h
  obtain ⟨hx, hsup⟩ := tr_supply hI.base htr
  have ht : ∀ s, total st.mem s S + mintedAll s qs < U64 := by
    intro s
    by_cases hs : s ∈ natives
    · rw [hmint s hs]; exact hB s hs
    · obtain ⟨h1, h2, _⟩ := hsup s hs
      have h3 : sup st s ≤ MAX := by
        unfold sup
        split
        · exact Nat.zero_le _
        · rename_i _ a ha; exact hI.base.cap s a hs ha
      rw [hI.tot s hs]
      unfold MAX at *; unfold U64; omega
  obtain ⟨w, _, t⟩ := execAll_exact S qs st.mem st'.mem hI.wf hin ht hx
  have hL := tr_log hI.base ⟨hI.keysN, hI.keysR, hI.symsN, hI.symsP, hI.logOk⟩ htr
  refine ⟨⟨tr_inv0 hI.base htr, w, fun s hs => ?_, fun s hs => ?_, hL.keysN, hL.keysR, hL.symsN, hL.symsP, hL.logOk⟩, fun s hs => ?_⟩
  · have h1 := (hsup s hs).1
    have h2 := t s
    have h3 := hI.tot s hs
    omega
  · obtain ⟨h1, _, l, h2, h3, h4⟩ := hsup s hs
    have h5 := hI.log s hs
    rw [h2, created_append, destroyed_append]
    omega
  · have h2 := t s
    rw [hmint s hs] at h2
    omega

def mintSum (s : Sym) (es : List Ev) : Nat := (es.map (Ev.mint s)).sum

theorem run_inv {S : Finset Ref} : ∀ (es : List Ev) {st : State}, Inv S st → (∀ e ∈ es, e.In S) →
    (∀ s ∈ natives, total st.mem s S + mintSum s es < U64) → Inv S (run st es)
  | [], _, hI, _, _ => hI
  | e :: es, st, hI, hE, hB => by
    have hB' : ∀ s ∈ natives, total st.mem s S + e.mint s + mintSum s es < U64 := by
      intro s hs
      have := hB s hs
      simp only [mintSum, List.map_cons, List.sum_cons] at this ⊢
      omega
    show Inv S (run (step st e) es)
    unfold step
    cases h : apply st e with
    | none =>
      exact run_inv es hI (fun x hx => hE x (by simp [hx])) (fun s hs => by have := hB' s hs; simp only [Option.getD_none]; omega)
    | some st' =>
      obtain ⟨h1, h2⟩ := apply_inv hI (hE e (by simp)) (fun s hs => by have := hB' s hs; omega) h
      exact run_inv es h1 (fun x hx => hE x (by simp [hx]))
        (fun s hs => by have := hB' s hs; have := h2 s hs; simp only [Option.getD_some]; omega)

/-- The log only grows, and native coins grow by what is minted at most. -/
theorem run_grow {S : Finset Ref} : ∀ (es : List Ev) {st : State}, Inv S st → (∀ e ∈ es, e.In S) →
    (∀ s ∈ natives, total st.mem s S + mintSum s es < U64) →
    (∃ l, (run st es).log = st.log ++ l) ∧ ∀ s ∈ natives, total (run st es).mem s S ≤ total st.mem s S + mintSum s es
  | [], _, _, _, _ => ⟨⟨[], by simp [run]⟩, fun _ _ => Nat.le_add_right _ _⟩
  | e :: es, st, hI, hE, hB => by
    have hB' : ∀ s ∈ natives, total st.mem s S + e.mint s + mintSum s es < U64 := by
      intro s hs
      have := hB s hs
      simp only [mintSum, List.map_cons, List.sum_cons] at this ⊢
      omega
    have e1 : ∀ s, mintSum s (e :: es) = e.mint s + mintSum s es := fun s => by simp [mintSum]
    show (∃ l, (run (step st e) es).log = st.log ++ l) ∧ ∀ s ∈ natives, total (run (step st e) es).mem s S ≤ _
    unfold step
    cases h : apply st e with
    | none =>
      obtain ⟨h3, h4⟩ := run_grow es hI (fun x hx => hE x (by simp [hx]))
        (fun s hs => by have := hB' s hs; omega)
      exact ⟨h3, fun s hs => by have := h4 s hs; have := e1 s; simp only [Option.getD_none]; omega⟩
    | some st' =>
      obtain ⟨h1, h2⟩ := apply_inv hI (hE e (by simp)) (fun s hs => by have := hB' s hs; omega) h
      obtain ⟨⟨l, h3⟩, h4⟩ := run_grow es h1 (fun x hx => hE x (by simp [hx]))
        (fun s hs => by have := hB' s hs; have := h2 s hs; omega)
      obtain ⟨qs, htr, _⟩ := apply_tr hI.base (hE e (by simp)) h
      obtain ⟨_, hsup⟩ := tr_supply hI.base htr
      obtain ⟨_, _, l', hl', _⟩ := hsup "zz" (by decide)
      refine ⟨⟨l' ++ l, ?_⟩, fun s hs => ?_⟩
      · simp only [Option.getD_some]; rw [h3, hl', List.append_assoc]
      · have := h2 s hs; have := h4 s hs; have := e1 s; simp only [Option.getD_some]; omega

/-- The bound on native coins carries over to the rest of a history. -/
theorem bound_rest {S : Finset Ref} {st : State} {a b : List Ev} (hI : Inv S st) (hE : ∀ e ∈ a ++ b, e.In S)
    (hB : ∀ s ∈ natives, total st.mem s S + mintSum s (a ++ b) < U64) :
    ∀ s ∈ natives, total (run st a).mem s S + mintSum s b < U64 := by
  have hs : ∀ s, mintSum s (a ++ b) = mintSum s a + mintSum s b := fun s => by simp [mintSum]
  have h := (run_grow a hI (fun e he => hE e (by simp [he])) (fun s h => by have := hB s h; have := hs s; omega)).2
  intro s h'
  have := h s h'
  have := hB s h'
  have := hs s
  omega

end Verif.Asset
