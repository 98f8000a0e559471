import Verif.Cdp.Store
/-! Every transaction keeps the store, the pledged balances and the balance of minted coins in order. -/
namespace Verif.Cdp

open Verif.Account Verif.Ledger Verif.Dbl

/-! ## Running the steps -/

theorem bind_ok {α β : Type} {r : Res α} {f : α → Res β} {y : β} : (r >>= f) = .ok y ↔ ∃ x, r = .ok x ∧ f x = .ok y := by
  cases r with
  | ok a => exact ⟨fun h => ⟨a, rfl, h⟩, fun ⟨x, h, h'⟩ => by cases h; exact h'⟩
  | fail => exact ⟨fun h => (by cases h), fun ⟨x, h, _⟩ => (by cases h)⟩
  | crash => exact ⟨fun h => (by cases h), fun ⟨x, h, _⟩ => (by cases h)⟩

theorem pure_ok {α : Type} {a b : α} : (pure a : Res α) = .ok b ↔ a = b := ⟨fun h => by cases h; rfl, fun h => by rw [h]; rfl⟩

theorem chk_ok {b : Bool} {u : Unit} : chk b = .ok u ↔ b = true := by
  cases b <;> simp [chk]

theorem asrt_ok {b : Bool} {u : Unit} : asrt b = .ok u ↔ b = true := by
  cases b <;> simp [asrt]

theorem ops_ok {m m' : Mem} {qs : List Req} : ops m qs = .ok m' ↔ execAll m qs = some m' := by
  unfold ops; cases execAll m qs <;> simp

theorem ex_unit {p : Unit → Prop} : (∃ u, p u) ↔ p () := ⟨fun ⟨_, h⟩ => h, fun h => ⟨(), h⟩⟩

/-! ## Pledged amounts -/

theorem bal_setBal (m : Mem) (r : Ref) (s : Sym) (b : Bucket) (v : Nat) (r' : Ref) (s' : Sym) (b' : Bucket) :
    bal (setBal m r s b v) r' s' b' = if r' = r ∧ s' = s ∧ b' = b then v else bal m r' s' b' := by
  unfold bal setBal Account.token Account.setToken
  by_cases h1 : r' = r <;> by_cases h2 : s' = s <;> by_cases h3 : b' = b <;> simp [h1, h2, h3, Account.token]

theorem bal_touch (m : Mem) (r : Ref) (s : Sym) (r' : Ref) (s' : Sym) (b' : Bucket) :
    bal (touch m r s) r' s' b' = bal m r' s' b' := by
  unfold bal touch Account.token Account.setToken
  by_cases h1 : r' = r <;> by_cases h2 : s' = s <;> simp [h1, h2, Account.token]

/-- Effect of an operation on a pledged amount. -/
def pledgeEff (q : Req) (r : Ref) (s : Sym) (x : Nat) : Nat :=
  if r = q.self ∧ s = q.sym then
    match q.op with
    | .pledge => wadd x q.amount
    | .unpledge => wsub x q.amount
    | _ => x
  else x

theorem opBal_pledged {m m' : Mem} {q : Req} (h : opBal m q = some m') (r : Ref) (s : Sym) :
    bal m' r s .pledged = pledgeEff q r s (bal m r s .pledged) ∧
    (q.op = .unpledge → q.amount ≤ bal m q.self q.sym .pledged) := by
  have h := opBal_some h
  obtain ⟨self, sym, op, v, peer⟩ := q
  unfold operateBalance at h
  dsimp only at h
  rw [ite_eq_iff] at h
  rcases h with ⟨-, h⟩ | ⟨-, h⟩
  · cases h
  · cases op <;> cases peer <;> simp only [move] at h <;> (try rw [ite_eq_iff] at h) <;>
      (try rcases h with ⟨hc, h⟩ | ⟨hc, h⟩) <;> (try (cases h; done)) <;> cases h
    all_goals
      simp only [bal_setBal, bal_touch, pledgeEff] at *
    all_goals
      by_cases h1 : r = self <;> by_cases h2 : s = sym <;> simp_all

theorem execAll_pledged_frame {m m' : Mem} {qs : List Req} (h : execAll m qs = some m')
    (hq : ∀ q ∈ qs, q.op ≠ .pledge ∧ q.op ≠ .unpledge) (r : Ref) (s : Sym) : bal m' r s .pledged = bal m r s .pledged := by
  induction qs generalizing m with
  | nil => cases h; rfl
  | cons q qs ih =>
    obtain ⟨m1, h1, h2⟩ := execAll_cons_some h
    rw [ih h2 (fun q' h' => hq q' (by simp [h']))]
    have hh := hq q (by simp)
    rw [(opBal_pledged h1 r s).1]
    unfold pledgeEff
    split
    · cases ho : q.op <;> simp_all
    · rfl

/-! ## The invariant -/

/-- Stored positions are in WUSD against another coin, with 64-bit amounts. -/
structure CdpOk (c : Cdp) : Prop where
  scoin : c.scoin = WUSD
  bcoin : c.bcoin ≠ WUSD
  bcoin' : c.bcoin ≠ WGRT
  staked : c.staked < U64
  owed : c.owed < U64

structure Inv (k : Conv) (σ : St) : Prop where
  good : Good k σ
  ok : ∀ id c, find σ.cdps id = some c → CdpOk c
  pledged : ∀ r s, (bal σ.mem r s .pledged : Int) = lockedOf σ.cdps r s

/-- Coins created less coins destroyed. -/
def net (s : Sym) (qs : List Req) : Int := (mintedAll s qs : Int) - burnedAll s qs

@[simp] theorem net_nil (s : Sym) : net s [] = 0 := rfl
theorem net_cons (s : Sym) (q : Req) (qs : List Req) : net s (q :: qs) = minted s q - burned s q + net s qs := by
  simp [net]; omega
theorem net_append (s : Sym) (a b : List Req) : net s (a ++ b) = net s a + net s b := by
  simp [net]; omega

theorem net_addFree (s : Sym) (a : Ref) (t : Sym) (v : Nat) (qs : List Req) :
    net s (⟨a, t, .addFree, v, none⟩ :: qs) = (if t = s then (v : Int) else 0) + net s qs := by
  rw [net_cons]; unfold minted burned; by_cases h : t = s <;> simp [h, eq_comm]
theorem net_subFree (s : Sym) (a : Ref) (t : Sym) (v : Nat) (qs : List Req) :
    net s (⟨a, t, .subFree, v, none⟩ :: qs) = - (if t = s then (v : Int) else 0) + net s qs := by
  rw [net_cons]; unfold minted burned; by_cases h : t = s <;> simp [h, eq_comm]
theorem net_xfer (s : Sym) (a b : Ref) (t : Sym) (v : Nat) (qs : List Req) :
    net s (⟨a, t, .subFree, v, some b⟩ :: qs) = net s qs := by
  rw [net_cons]; simp [minted, burned]
theorem net_move {op : Op} {sd : Bucket × Bucket} (h : moveOf op = some sd) (s : Sym) (a : Ref) (t : Sym) (v : Nat) (qs : List Req) :
    net s (⟨a, t, op, v, none⟩ :: qs) = net s qs := by
  rw [net_cons, minted_move h, burned_move h]; omega

/-- What a transaction may do: keep the invariant, open no position except `new`, create `x` more WUSD than it adds to the
recorded debt, and no other coin except WGRT. -/
structure Step (k : Conv) (σ σ' : St) (new : Option Nat) (x : Int) : Prop where
  inv : Inv k σ'
  ids : ∀ id, find σ.cdps id = none → new ≠ some id → find σ'.cdps id = none
  coins : ∃ qs, execAll σ.mem qs = some σ'.mem ∧ net WUSD qs = debtOf σ'.cdps WUSD - debtOf σ.cdps WUSD + x ∧
    ∀ s, s ≠ WUSD → s ≠ WGRT → net s qs = 0

theorem Step.refl {k : Conv} {σ : St} (I : Inv k σ) : Step k σ σ none 0 :=
  ⟨I, fun _ h _ => h, [], rfl, by simp, fun _ _ _ => rfl⟩

theorem Step.trans {k : Conv} {a b c : St} {n : Option Nat} {x y : Int} (h : Step k a b n x) (h' : Step k b c none y) :
    Step k a c n (x + y) := by
  obtain ⟨q1, e1, n1, o1⟩ := h.coins
  obtain ⟨q2, e2, n2, o2⟩ := h'.coins
  refine ⟨h'.inv, fun id hf hn => h'.ids id (h.ids id hf hn) (by simp), q1 ++ q2, execAll_trans e1 e2, ?_, ?_⟩
  · rw [net_append, n1, n2]; omega
  · intro s h1 h2; rw [net_append, o1 s h1 h2, o2 s h1 h2]; rfl

/-! One position per owner and coin. -/

theorem Inv.one {k : Conv} {σ : St} (I : Inv k σ) {c : Cdp} (hc : find σ.cdps c.id = some c) :
    ∀ id x, find σ.cdps id = some x → x.owner = c.owner → x.bcoin = c.bcoin → id = c.id := by
  intro id x hx ho hb
  have h1 := (I.good.user c.owner c.pair c.id).2 ⟨c, hc, rfl, rfl⟩
  have h2 := (I.good.user c.owner c.pair id).2 ⟨x, hx, ho, by
    unfold Cdp.pair; rw [hb, (I.ok _ _ hx).scoin, (I.ok _ _ hc).scoin]⟩
  rw [h1] at h2; cases h2; rfl

theorem Inv.pledged_eq {k : Conv} {σ : St} (I : Inv k σ) {c : Cdp} (hc : find σ.cdps c.id = some c) :
    bal σ.mem c.owner c.bcoin .pledged = c.staked := by
  have := I.pledged c.owner c.bcoin
  rw [locked_single I.good.sorted hc (I.one hc)] at this
  omega

theorem Inv.pledged_zero {k : Conv} {σ : St} (I : Inv k σ) {r : Ref} {a : Sym} (h : σ.user (r, (a, WUSD)) = none) :
    bal σ.mem r a .pledged = 0 := by
  have := I.pledged r a
  rw [locked_none I.good.sorted] at this
  · omega
  · rintro id x hx ⟨h1, h2⟩
    have := (I.good.user r (a, WUSD) id).2 ⟨x, hx, h1, by unfold Cdp.pair; rw [h2, (I.ok _ _ hx).scoin]⟩
    rw [h] at this; cases this

/-! The three changes of the store, each together with the accounts. -/

theorem inv_new {k : Conv} {σ : St} {c : Cdp} {m : Mem} (I : Inv k σ) (hn : find σ.cdps c.id = none)
    (hu : σ.user (c.owner, c.pair) = none) (hok : CdpOk c)
    (hp : ∀ r s, (bal m r s .pledged : Int) = bal σ.mem r s .pledged + if c.owner = r ∧ c.bcoin = s then (c.staked : Int) else 0) :
    Inv k { newCDP k σ c with mem := m } := by
  refine ⟨good_mem (newCDP_good I.good hn hu) m, ?_, ?_⟩
  · intro id x hx
    simp only [newCDP, saveIdx] at hx
    rw [find_put] at hx
    split at hx
    · cases hx; exact hok
    · exact I.ok _ _ hx
  · intro r s
    show (bal m r s .pledged : Int) = lockedOf (newCDP k σ c).cdps r s
    rw [hp, locked_new I.good.sorted hn, I.pledged]

theorem inv_erase {k : Conv} {σ : St} {c : Cdp} {m : Mem} (I : Inv k σ) (hc : find σ.cdps c.id = some c)
    (hp : ∀ r s, (bal m r s .pledged : Int) = bal σ.mem r s .pledged - if c.owner = r ∧ c.bcoin = s then (c.staked : Int) else 0) :
    Inv k { eraseCDP k σ c with mem := m } := by
  refine ⟨good_mem (eraseCDP_good I.good hc) m, ?_, ?_⟩
  · intro id x hx
    simp only [eraseCDP, eraseIdx] at hx
    rw [find_del] at hx
    split at hx
    · cases hx
    · exact I.ok _ _ hx
  · intro r s
    show (bal m r s .pledged : Int) = lockedOf (eraseCDP k σ c).cdps r s
    rw [hp, locked_erase I.good.sorted hc, I.pledged]

theorem inv_update {k : Conv} {σ : St} {o n : Cdp} {m : Mem} (I : Inv k σ) (ho : find σ.cdps o.id = some o)
    (hid : n.id = o.id) (how : n.owner = o.owner) (hb : n.bcoin = o.bcoin) (hsc : n.scoin = o.scoin)
    (h1 : n.staked < U64) (h2 : n.owed < U64)
    (hp : ∀ r s, (bal m r s .pledged : Int) = bal σ.mem r s .pledged +
      if o.owner = r ∧ o.bcoin = s then (n.staked : Int) - o.staked else 0) :
    Inv k { updateCDP k σ o n with mem := m } := by
  refine ⟨good_mem (updateCDP_good I.good ho hid how (by unfold Cdp.pair; rw [hb, hsc])) m, ?_, ?_⟩
  · intro id x hx
    simp only [updateCDP, eraseIdx, saveIdx] at hx
    rw [find_put] at hx
    split at hx
    · cases hx
      have := I.ok _ _ ho
      exact ⟨hsc.trans this.scoin, by rw [hb]; exact this.bcoin, by rw [hb]; exact this.bcoin', h1, h2⟩
    · exact I.ok _ _ hx
  · intro r s
    show (bal m r s .pledged : Int) = lockedOf (updateCDP k σ o n).cdps r s
    rw [hp, locked_update I.good.sorted ho hid how hb, I.pledged]

theorem ids_new {k : Conv} {σ : St} {c : Cdp} {id : Nat} (h : find σ.cdps id = none) (hn : some c.id ≠ some id) :
    find (newCDP k σ c).cdps id = none := by
  simp only [newCDP, saveIdx]; rw [find_put, if_neg (fun e => hn (by rw [e]))]; exact h

theorem ids_erase {k : Conv} {σ : St} {c : Cdp} {id : Nat} (h : find σ.cdps id = none) : find (eraseCDP k σ c).cdps id = none := by
  simp only [eraseCDP, eraseIdx]; rw [find_del]; split
  · rfl
  · exact h

theorem ids_update {k : Conv} {σ : St} {o n : Cdp} {id : Nat} (h : find σ.cdps id = none) (ho : find σ.cdps o.id = some o)
    (hid : n.id = o.id) : find (updateCDP k σ o n).cdps id = none := by
  simp only [updateCDP, eraseIdx, saveIdx]; rw [find_put, if_neg]
  · exact h
  · rintro rfl; rw [hid, ho] at h; cases h

/-! ## Interest -/

theorem interest_net (e : Env) (c : Cdp) (a : Ref) (i : Nat) (s : Sym) : net s (interestReqs e c a i) = 0 := by
  unfold interestReqs
  split
  · rfl
  · rw [net_xfer, net_move (op := .freeze) rfl]; rfl

theorem interest_plain (e : Env) (c : Cdp) (a : Ref) (i : Nat) : ∀ q ∈ interestReqs e c a i, q.op ≠ .pledge ∧ q.op ≠ .unpledge := by
  unfold interestReqs
  split
  · simp
  · simp

theorem sellInterest_ok {e : Env} {m m' : Mem} {c : Cdp} {a : Ref} {i : Nat} (h : sellInterest e m c a i = .ok m') :
    execAll m (interestReqs e c a i) = some m' := by
  unfold sellInterest at h
  simp only [bind_ok, ops_ok, pure_ok] at h
  obtain ⟨x, h1, -, -, rfl⟩ := h
  exact h1

theorem addStake_ok {c c' : Cdp} {h b s : Nat} (hc : CdpOk c) (hb : b < U64) (hs : s < U64) (hh : c.addStake h b s = .ok c') :
    c.staked + b < U64 ∧ c.owed + s < U64 ∧ c' = { c with height := h, staked := c.staked + b, owed := c.owed + s } := by
  unfold Cdp.addStake at hh
  simp only [bind_ok, asrt_ok, pure_ok, ex_unit, decide_eq_true_eq] at hh
  obtain ⟨h1, h2, rfl⟩ := hh
  have a1 := hc.staked
  have a2 := hc.owed
  have b1 : c.staked + b < U64 := by
    unfold wadd at h1; unfold U64 at *; omega
  have b2 : c.owed + s < U64 := by
    unfold wadd at h2; unfold U64 at *; omega
  refine ⟨b1, b2, ?_⟩
  rw [wadd_eq b1, wadd_eq b2]

/-! ## Stake -/

/-- Coins minted to pay interest and recorded nowhere: the interest beyond the owner's free balance. -/
def uncovered (e : Env) (σ : St) (t : Stake) : Nat :=
  match t.cdp with
  | none => 0
  | some cid =>
    match find σ.cdps cid with
    | none => 0
    | some c =>
      if c.owed = 0 ∨ e.r3 = false then 0
      else (e.interest (c.bcoin, t.scoin) c.owed c.height e.height).getD 0 - bal σ.mem t.who t.scoin .free

/-- Numbers are 64-bit. -/
def Env.Ok (e : Env) : Prop := ∀ p o a b i, e.interest p o a b = some i → i < U64

theorem stake_step {k : Conv} {e : Env} {σ σ' : St} {t : Stake} (hk : e.k = k) (I : Inv k σ)
    (hid : t.cdp = none → find σ.cdps t.id = none) (ha : ∀ x ∈ t.assets, x.2 < U64) (hm : t.mint < U64)
    (h : stake e σ t = .ok σ') : Step k σ σ' (if t.cdp = none then some t.id else none) (uncovered e σ t) := by
  subst hk
  unfold stake at h
  simp only [bind_ok, chk_ok, ex_unit, ops_ok, pure_ok, Prod.exists] at h
  obtain ⟨a, v, hc, hpr, hg, hceil, σ1, h1, m, hm2, rfl⟩ := h
  have hassets : t.assets = [(a, v)] ∧ t.scoin = WUSD ∧ a ≠ WGRT ∧ a ≠ WUSD := by
    unfold checkStake at hc
    split at hc
    · rename_i a' v' hs
      simp only [bind_ok, chk_ok, ex_unit, pure_ok, decide_eq_true_eq] at hc
      obtain ⟨c1, c2, c3⟩ := hc
      cases c3
      exact ⟨hs, c1, c2.1, c2.2.1⟩
    · cases hc
  obtain ⟨hass, hsc, hw1, hw2⟩ := hassets
  have hv : v < U64 := ha (a, v) (by rw [hass]; simp)
  obtain ⟨ma, hma, hmb⟩ := execAll_cons_some hm2
  obtain ⟨mb, hmb, hme⟩ := execAll_cons_some hmb
  cases hme
  have hpl : ∀ r s, bal m r s .pledged = pledgeEff ⟨t.who, a, .pledge, v, none⟩ r s (bal σ1.mem r s .pledged) := by
    intro r s
    rw [(opBal_pledged hmb r s).1, (opBal_pledged hma r s).1]
    unfold pledgeEff; dsimp only; split <;> rfl
  cases htc : t.cdp with
  | none =>
    simp only [position, htc, openCdp, bind_ok, chk_ok, ex_unit, pure_ok, decide_eq_true_eq] at h1
    obtain ⟨hnz, hus, -, -, rfl⟩ := h1
    have hus : σ.user (t.who, (a, t.scoin)) = none := by simpa using hus
    have hn := hid htc
    have hz : bal σ.mem t.who a .pledged = 0 := I.pledged_zero (by rw [← hsc]; exact hus)
    set c : Cdp := ⟨t.id, t.who, e.height, a, t.scoin, v, t.mint⟩ with hcd
    have hok : CdpOk c := ⟨hsc, hw2, hw1, hv, hm⟩
    have hmem : (newCDP e.k σ c).mem = σ.mem := rfl
    rw [hmem] at hpl hma
    refine ⟨inv_new I hn hus hok ?_, ?_, [⟨t.who, a, .pledge, v, none⟩, ⟨t.who, t.scoin, .addFree, t.mint, none⟩], ?_, ?_, ?_⟩
    · intro r s
      rw [hpl]
      unfold pledgeEff
      dsimp only [hcd]
      by_cases hh : r = t.who ∧ s = a
      · obtain ⟨rfl, rfl⟩ := hh
        simp only [and_self, if_true]
        rw [hz, wadd_eq (a := 0) (b := v) (by omega)]
        have hst : (c.staked : Int) = v := rfl
        simp only [Int.natCast_zero, Int.zero_add, Nat.zero_add]
        rw [if_pos ⟨rfl, rfl⟩, hst]
      · rw [if_neg hh, if_neg (fun e => hh ⟨e.1.symm, e.2.symm⟩)]; omega
    · intro id hf hne
      rw [if_pos rfl] at hne
      exact ids_new (k := e.k) hf hne
    · exact execAll_of_opBal hma (execAll_one hmb)
    · rw [net_move (op := .pledge) rfl, net_addFree, if_pos hsc]
      show _ = debtOf (newCDP e.k σ c).cdps WUSD - debtOf σ.cdps WUSD + _
      rw [debt_new I.good.sorted hn, if_pos hsc]
      simp only [net_nil, uncovered, htc, hcd]
      omega
    · intro s hs1 hs2
      rw [net_move (op := .pledge) rfl, net_addFree, if_neg (fun e => hs1 (e.symm.trans hsc))]; rfl
  | some cid =>
    unfold position at h1
    rw [htc] at h1
    dsimp only at h1
    unfold growCdp at h1
    dsimp only at h1
    cases hf : find σ.cdps cid with
    | none => rw [hf] at h1; cases h1
    | some c =>
      rw [hf] at h1
      simp only [bind_ok, chk_ok, ex_unit, pure_ok, decide_eq_true_eq, ops_ok] at h1
      obtain ⟨hba, hwho, hhe, i, hi, m1, hm1, hrat, m2, hmi, c', hc', rfl⟩ := h1
      have hci : c.id = cid := I.good.ids _ _ hf
      have hfc : find σ.cdps c.id = some c := by rw [hci]; exact hf
      have hok := I.ok _ _ hf
      obtain ⟨b1, b2, rfl⟩ := addStake_ok hok hv hm hc'
      have hsi := sellInterest_ok hmi
      have hpm1 : ∀ r s, bal m1 r s .pledged = bal σ.mem r s .pledged := execAll_pledged_frame hm1 (by
        unfold shortReqs; split <;> simp)
      have hpm2 : ∀ r s, bal m2 r s .pledged = bal m1 r s .pledged := execAll_pledged_frame hsi (interest_plain _ _ _ _)
      have hz := I.pledged_eq hfc
      rw [← hba, ← hwho] at hz
      change ∀ r s, bal m r s .pledged = pledgeEff _ r s (bal m2 r s .pledged) at hpl
      change opBal m2 _ = some ma at hma
      have hunc : (uncovered e σ t : Int) = shortfall e σ.mem t.who t.scoin i := by
        unfold uncovered shortfall
        rw [htc]
        simp only [hf]
        unfold getInterest at hi
        split at hi
        · rename_i h0
          cases hi
          simp only at h0
          simp [h0]
        · rename_i h0
          simp only at h0
          have hii : e.interest (c.bcoin, t.scoin) c.owed c.height e.height = some i := by
            revert hi
            show (match e.interest (c.bcoin, t.scoin) c.owed c.height e.height with
              | none => Res.fail
              | some i => Res.ok i) = Res.ok i → _
            cases e.interest (c.bcoin, t.scoin) c.owed c.height e.height with
            | none => intro h; cases h
            | some j => intro h; cases h; rfl
          rw [hii]
          cases hr : e.r3 <;> simp [h0]
      refine ⟨inv_update (σ := σ) (m := m) (n := { c with height := e.height, staked := c.staked + v, owed := c.owed + t.mint }) I hfc rfl rfl rfl rfl b1 b2 ?_, ?_,
        shortReqs t.who t.scoin (shortfall e σ.mem t.who t.scoin i) ++ (interestReqs e c t.who i ++
          [⟨t.who, a, .pledge, v, none⟩, ⟨t.who, t.scoin, .addFree, t.mint, none⟩]), ?_, ?_, ?_⟩
      · intro r s
        rw [hpl, hpm2, hpm1]
        unfold pledgeEff
        dsimp only
        by_cases hh : r = t.who ∧ s = a
        · obtain ⟨rfl, rfl⟩ := hh
          rw [if_pos ⟨rfl, rfl⟩, if_pos ⟨hwho.symm, hba.symm⟩, hz, wadd_eq b1]; omega
        · rw [if_neg hh, if_neg (fun e => hh ⟨(hwho.trans e.1).symm, (hba.trans e.2).symm⟩)]; omega
      · intro id hf' _
        exact ids_update (k := e.k) hf' hfc rfl
      · exact execAll_trans hm1 (execAll_trans hsi (execAll_of_opBal hma (execAll_one hmb)))
      · rw [net_append, net_append, interest_net, net_move (op := .pledge) rfl, net_addFree, if_pos hsc]
        show _ = debtOf (updateCDP e.k { σ with mem := m2 } c
          { c with height := e.height, staked := c.staked + v, owed := c.owed + t.mint }).cdps WUSD - _ + _
        rw [debt_update (σ := { σ with mem := m2 }) (n := { c with height := e.height, staked := c.staked + v, owed := c.owed + t.mint }) I.good.sorted hfc rfl rfl, if_pos hok.scoin, hunc]
        have : net WUSD (shortReqs t.who t.scoin (shortfall e σ.mem t.who t.scoin i)) = shortfall e σ.mem t.who t.scoin i := by
          unfold shortReqs
          split
          · rename_i h0; rw [h0]; rfl
          · rw [net_addFree, if_pos hsc]; simp
        rw [this]
        simp only [net_nil]
        omega
      · intro s hs1 hs2
        rw [net_append, net_append, interest_net, net_move (op := .pledge) rfl, net_addFree, if_neg (fun e => hs1 (e.symm.trans hsc))]
        have : net s (shortReqs t.who t.scoin (shortfall e σ.mem t.who t.scoin i)) = 0 := by
          unfold shortReqs
          split
          · rfl
          · rw [net_addFree, if_neg (fun e => hs1 (e.symm.trans hsc))]; rfl
        rw [this]; rfl

/-! ## Redeem -/

theorem redeem_ok {c c' : Cdp} {h b s : Nat} (hh : c.redeem h b s = .ok c') :
    b ≤ c.staked ∧ s ≤ c.owed ∧ c' = { c with height := h, staked := c.staked - b, owed := c.owed - s } := by
  unfold Cdp.redeem at hh
  simp only [bind_ok, asrt_ok, pure_ok, ex_unit, decide_eq_true_eq] at hh
  obtain ⟨h1, h2, rfl⟩ := hh
  exact ⟨h1, h2, rfl⟩

/-- A redemption either closes the position or stores the reduced one. -/
theorem storeRedeemed_ok {e : Env} {σ σ1 : St} {c c' : Cdp} {v : Nat} (h : storeRedeemed e σ c c' v = .ok σ1) :
    (c'.owed = 0 ∧ c'.staked = 0 ∧ σ1 = eraseCDP e.k σ c) ∨ σ1 = updateCDP e.k σ c c' := by
  unfold storeRedeemed at h
  split at h
  · rename_i h0
    rw [pure_ok] at h
    exact Or.inl ⟨h0.1, h0.2, h.symm⟩
  · split at h
    · simp only [bind_ok, chk_ok, ex_unit, pure_ok] at h
      exact Or.inr h.2.2.symm
    · rw [pure_ok] at h; exact Or.inr h.symm

theorem unpledge_eff {r r' : Ref} {s s' : Sym} {v x : Nat} (hv : v ≤ x) (hx : x < U64) :
    (pledgeEff ⟨r', s', .unpledge, v, none⟩ r s x : Int) = x - if r' = r ∧ s' = s then (v : Int) else 0 := by
  unfold pledgeEff
  dsimp only
  by_cases h : r = r' ∧ s = s'
  · rw [if_pos h, if_pos ⟨h.1.symm, h.2.symm⟩, wsub_eq hv hx]; omega
  · rw [if_neg h, if_neg (fun e => h ⟨e.1.symm, e.2.symm⟩)]; omega

theorem redeem_step {k : Conv} {e : Env} {σ σ' : St} {t : Redeem} (hk : e.k = k) (I : Inv k σ)
    (h : redeem e σ t = .ok σ') : Step k σ σ' none 0 := by
  subst hk
  unfold redeem at h
  cases hf : find σ.cdps t.cdp with
  | none => rw [hf] at h; cases h
  | some c =>
    rw [hf] at h
    dsimp only at h
    split at h
    · rename_i a v0 hass
      simp only [bind_ok, chk_ok, ex_unit, pure_ok, decide_eq_true_eq, ops_ok] at h
      obtain ⟨hba, hwho, -, -, -, i, -, m1, hmi, -, c', hc', σ1, hst, m, hm, rfl⟩ := h
      have hci : c.id = t.cdp := I.good.ids _ _ hf
      have hfc : find σ.cdps c.id = some c := by rw [hci]; exact hf
      have hok := I.ok _ _ hf
      obtain ⟨b1, b2, rfl⟩ := redeem_ok hc'
      have hsi := sellInterest_ok hmi
      have hpm1 : ∀ r s, bal m1 r s .pledged = bal σ.mem r s .pledged := execAll_pledged_frame hsi (interest_plain _ _ _ _)
      have hmem : σ1.mem = m1 := by
        rcases storeRedeemed_ok hst with ⟨-, -, rfl⟩ | rfl <;> rfl
      rw [hmem] at hm
      obtain ⟨ma, hma, hmb⟩ := execAll_cons_some hm
      obtain ⟨mb, hmb, hme⟩ := execAll_cons_some hmb
      cases hme
      have hz := I.pledged_eq hfc
      rw [← hwho] at hz
      have hpl : ∀ r s, (bal m r s .pledged : Int) = bal σ.mem r s .pledged -
          if c.owner = r ∧ c.bcoin = s then ((min v0 c.staked : Nat) : Int) else 0 := by
        intro r s
        have h1 : bal ma r s .pledged = bal σ.mem r s .pledged := by
          rw [(opBal_pledged hma r s).1, hpm1]; unfold pledgeEff; dsimp only; split <;> rfl
        rw [(opBal_pledged hmb r s).1, h1]
        by_cases hh : t.who = r ∧ c.bcoin = s
        · rw [unpledge_eff _ _, hwho]
          · rw [← hh.1, ← hh.2, hz]; omega
          · rw [← hh.1, ← hh.2, hz]; exact hok.staked
        · unfold pledgeEff
          dsimp only
          rw [if_neg (fun e => hh ⟨e.1.symm, e.2.symm⟩), if_neg (fun e => hh ⟨hwho.trans e.1, e.2⟩)]; omega
      have hex : execAll σ.mem (interestReqs e c t.who i ++ [⟨t.who, c.scoin, .subFree, min t.repay c.owed, none⟩,
          ⟨t.who, c.bcoin, .unpledge, min v0 c.staked, none⟩]) = some m :=
        execAll_trans hsi (execAll_of_opBal hma (execAll_one hmb))
      have hnet : ∀ s, net s (interestReqs e c t.who i ++ [⟨t.who, c.scoin, .subFree, min t.repay c.owed, none⟩,
          ⟨t.who, c.bcoin, .unpledge, min v0 c.staked, none⟩]) = - if c.scoin = s then ((min t.repay c.owed : Nat) : Int) else 0 := by
        intro s
        rw [net_append, interest_net, net_subFree, net_move (op := .unpledge) rfl, net_nil]; omega
      rcases storeRedeemed_ok hst with ⟨z1, z2, rfl⟩ | rfl
      · dsimp only at z1 z2
        refine ⟨inv_erase (σ := σ) (m := m) I hfc ?_, ?_, _, hex, ?_, ?_⟩
        · intro r s
          rw [hpl]
          have : min v0 c.staked = c.staked := by omega
          rw [this]
        · intro id hf' _; exact ids_erase (k := e.k) hf'
        · rw [hnet, if_pos hok.scoin]
          show _ = debtOf (eraseCDP e.k { σ with mem := m1 } c).cdps WUSD - _ + 0
          rw [debt_erase (σ := { σ with mem := m1 }) I.good.sorted hfc, if_pos hok.scoin]
          dsimp only
          omega
        · intro s hs1 hs2
          rw [hnet, if_neg (fun e => hs1 (e.symm.trans hok.scoin))]; rfl
      · have s1 := hok.staked
        have s2 := hok.owed
        refine ⟨inv_update (σ := σ) (m := m) (n := { c with height := e.height, staked := c.staked - min v0 c.staked, owed := c.owed - min t.repay c.owed })
          I hfc rfl rfl rfl rfl ?_ ?_ ?_, ?_, _, hex, ?_, ?_⟩
        · dsimp only; omega
        · dsimp only; omega
        · intro r s
          rw [hpl]
          dsimp only
          split <;> omega
        · intro id hf' _; exact ids_update (k := e.k) (σ := { σ with mem := m1 }) hf' hfc rfl
        · rw [hnet, if_pos hok.scoin]
          show _ = debtOf (updateCDP e.k { σ with mem := m1 } c
            { c with height := e.height, staked := c.staked - min v0 c.staked, owed := c.owed - min t.repay c.owed }).cdps WUSD - _ + 0
          rw [debt_update (σ := { σ with mem := m1 })
            (n := { c with height := e.height, staked := c.staked - min v0 c.staked, owed := c.owed - min t.repay c.owed })
            I.good.sorted hfc rfl rfl, if_pos hok.scoin]
          dsimp only
          omega
        · intro s hs1 hs2
          rw [hnet, if_neg (fun e => hs1 (e.symm.trans hok.scoin))]; rfl
    · cases h

/-! ## Liquidation -/

theorem penalty_ok {e : Env} {m m' : Mem} {c : Cdp} {f : Nat} (h : penalty e m c f = .ok m') :
    execAll m (penaltyReqs e c.scoin f) = some m' := by
  unfold penalty at h
  simp only [bind_ok, ops_ok, pure_ok] at h
  obtain ⟨x, h1, -, -, rfl⟩ := h
  exact h1

theorem penalty_net (e : Env) (t : Sym) (f : Nat) (s : Sym) : net s (penaltyReqs e t f) = if t = s then (f : Int) else 0 := by
  unfold penaltyReqs
  split
  · rename_i h; subst h; simp
  · split
    · rw [net_addFree]; simp
    · rw [net_addFree, net_move (op := .freeze) rfl]; simp

theorem penalty_plain (e : Env) (t : Sym) (f : Nat) : ∀ q ∈ penaltyReqs e t f, q.op ≠ .pledge ∧ q.op ≠ .unpledge := by
  unfold penaltyReqs
  split
  · simp
  · split <;> simp

theorem liq_net (w o : Ref) (b t : Sym) (pay x y : Nat) (s : Sym) :
    net s (liqReqs w o b t pay x y) = - if t = s then (pay : Int) else 0 := by
  unfold liqReqs
  rw [net_subFree, net_addFree, net_move (op := .unpledge) rfl, net_subFree, net_move (op := .unpledge) rfl, net_nil]
  omega

/-- The common operations take `x + y` out of the owner's pledged amount. -/
theorem liq_pledged {m m' : Mem} {w o : Ref} {b t : Sym} {pay x y : Nat} (hb : bal m o b .pledged < U64)
    (h : execAll m (liqReqs w o b t pay x y) = some m') :
    x + y ≤ bal m o b .pledged ∧
    ∀ r s, (bal m' r s .pledged : Int) = bal m r s .pledged - if o = r ∧ b = s then ((x + y : Nat) : Int) else 0 := by
  unfold liqReqs at h
  obtain ⟨m1, h1, h⟩ := execAll_cons_some h
  obtain ⟨m2, h2, h⟩ := execAll_cons_some h
  obtain ⟨m3, h3, h⟩ := execAll_cons_some h
  obtain ⟨m4, h4, h⟩ := execAll_cons_some h
  obtain ⟨m5, h5, h⟩ := execAll_cons_some h
  cases h
  have e2 : ∀ r s, bal m2 r s .pledged = bal m r s .pledged := by
    intro r s
    rw [(opBal_pledged h2 r s).1, (opBal_pledged h1 r s).1]
    unfold pledgeEff; dsimp only; split <;> split <;> rfl
  have p3 := (opBal_pledged h3 o b).2 rfl
  have p5 := (opBal_pledged h5 o b).2 rfl
  dsimp only at p3 p5
  rw [e2] at p3
  have e4 : ∀ r s, bal m4 r s .pledged = if r = o ∧ s = b then bal m r s .pledged - x else bal m r s .pledged := by
    intro r s
    rw [(opBal_pledged h4 r s).1, (opBal_pledged h3 r s).1, e2]
    unfold pledgeEff; dsimp only
    by_cases hh : r = o ∧ s = b
    · simp only [if_pos hh]
      rw [hh.1, hh.2]
      exact wsub_eq p3 hb
    · simp only [if_neg hh]
  rw [e4, if_pos ⟨rfl, rfl⟩] at p5
  refine ⟨by omega, ?_⟩
  intro r s
  rw [(opBal_pledged h5 r s).1, e4]
  by_cases hh : r = o ∧ s = b
  · obtain ⟨rfl, rfl⟩ := hh
    unfold pledgeEff
    dsimp only
    simp only [and_self, if_true]
    rw [wsub_eq p5 (by omega)]
    omega
  · unfold pledgeEff
    dsimp only
    rw [if_neg hh, if_neg hh, if_neg (fun e => hh ⟨e.1.symm, e.2.symm⟩)]; omega

theorem terms_split {k : Conv} {par : Params} {c : Cdp} {price : Nat} {x : Terms} (h : terms k par c price = .ok x) :
    x.toLiq + x.toOwner = c.staked ∧ ∃ d, x.fund = wsub d c.owed ∧ (d = x.pay ∨ (x.pay = c.owed ∧ d = c.owed)) := by
  unfold terms at h
  dsimp only at h
  rw [ite_eq_iff] at h
  rcases h with ⟨-, h⟩ | ⟨-, h⟩
  · cases h
  · rw [ite_eq_iff] at h
    rcases h with ⟨-, h⟩ | ⟨-, h⟩
    · rw [ite_eq_iff] at h
      rcases h with ⟨hle, h⟩ | ⟨-, h⟩
      · cases h
        exact ⟨by dsimp only; omega, _, rfl, Or.inl rfl⟩
      · cases h
    · rw [ite_eq_iff] at h
      rcases h with ⟨-, h⟩ | ⟨-, h⟩
      · cases h
        exact ⟨by dsimp only; omega, _, rfl, Or.inl rfl⟩
      · cases h
        refine ⟨by dsimp only; omega, c.owed, ?_, Or.inr ⟨rfl, rfl⟩⟩
        unfold wsub U64; dsimp only; omega

/-- `2^64` when the unsigned difference `a - b` wraps. -/
def wrapped (a b : Nat) : Nat := if a < b then U64 else 0

theorem wsub_wrapped {a b : Nat} (ha : a < U64) (hb : b < U64) : (wsub a b : Int) = a - b + wrapped a b := by
  unfold wrapped wsub U64 at *; split <;> omega

/-- The surplus a liquidation mints: zero unless the penalty wraps around. -/
def overMint (e : Env) (σ : St) (t : Liq) : Nat :=
  match find σ.cdps t.cdp with
  | none => 0
  | some c =>
    match terms e.k (e.par c.pair) c (e.price c.pair) with
    | .ok x => if x.pay ≤ t.amount then wrapped x.pay c.owed
      else wrapped t.amount (e.k.cv (mul (ofU c.owed) (div (ofU t.amount) (ofU x.pay))))
    | _ => 0

theorem partialLiq_ok {c c' : Cdp} {b s : Nat} (hh : c.partialLiq b s = .ok c') :
    b ≤ c.staked ∧ s ≤ c.owed ∧ c' = { c with staked := c.staked - b, owed := c.owed - s } := by
  unfold Cdp.partialLiq at hh
  simp only [bind_ok, asrt_ok, pure_ok, ex_unit, decide_eq_true_eq] at hh
  obtain ⟨h1, h2, rfl⟩ := hh
  exact ⟨h1, h2, rfl⟩

theorem terms_pay_lt {k : Conv} {par : Params} {c : Cdp} {price : Nat} {x : Terms} (hc : CdpOk c) (h : terms k par c price = .ok x) :
    x.pay < U64 := by
  unfold terms at h
  dsimp only at h
  rw [ite_eq_iff] at h
  rcases h with ⟨-, h⟩ | ⟨-, h⟩
  · cases h
  · rw [ite_eq_iff] at h
    rcases h with ⟨-, h⟩ | ⟨-, h⟩
    · rw [ite_eq_iff] at h
      rcases h with ⟨hle, h⟩ | ⟨-, h⟩
      · cases h
        exact k.lt _
      · cases h
    · rw [ite_eq_iff] at h
      rcases h with ⟨-, h⟩ | ⟨-, h⟩
      · cases h
        exact k.lt _
      · cases h
        exact hc.owed

theorem liquidate_step {k : Conv} {e : Env} {σ σ' : St} {t : Liq} (hk : e.k = k) (I : Inv k σ) (ht : t.amount < U64)
    (h : liquidate e σ t = .ok σ') : Step k σ σ' none (overMint e σ t) := by
  subst hk
  unfold liquidate at h
  simp only [bind_ok, chk_ok, ex_unit] at h
  obtain ⟨-, h⟩ := h
  cases hf : find σ.cdps t.cdp with
  | none => rw [hf] at h; cases h
  | some c =>
    rw [hf] at h
    simp only [bind_ok, chk_ok, ex_unit, decide_eq_true_eq] at h
    obtain ⟨-, -, -, -, x, hx, h⟩ := h
    have hci : c.id = t.cdp := I.good.ids _ _ hf
    have hfc : find σ.cdps c.id = some c := by rw [hci]; exact hf
    have hok := I.ok _ _ hf
    have hz := I.pledged_eq hfc
    have hov : overMint e σ t = if x.pay ≤ t.amount then wrapped x.pay c.owed
        else wrapped t.amount (e.k.cv (mul (ofU c.owed) (div (ofU t.amount) (ofU x.pay)))) := by
      unfold overMint; rw [hf]; dsimp only; rw [hx]
    have hpay := terms_pay_lt hok hx
    obtain ⟨hsp, d, hd, hdd⟩ := terms_split hx
    rw [ite_eq_iff] at h
    rcases h with ⟨hle, h⟩ | ⟨hle, h⟩
    · rw [if_pos hle] at hov
      simp only [liqFull, bind_ok, ops_ok, pure_ok] at h
      obtain ⟨m1, h1, m2, h2, rfl⟩ := h
      have h2 := penalty_ok h2
      obtain ⟨-, hp1⟩ := liq_pledged (by rw [hz]; exact hok.staked) h1
      refine ⟨inv_erase (σ := σ) (m := m2) I hfc ?_, ?_, _, execAll_trans h1 h2, ?_, ?_⟩
      · intro r s
        rw [execAll_pledged_frame h2 (penalty_plain _ _ _), hp1, hsp]
      · intro id hf' _; exact ids_erase (k := e.k) hf'
      · rw [net_append, liq_net, penalty_net, if_pos hok.scoin, if_pos hok.scoin,
          debt_erase (σ := { σ with mem := m2 }) I.good.sorted hfc, if_pos hok.scoin, hov, hd]
        dsimp only
        rcases hdd with rfl | ⟨e1, rfl⟩
        · rw [wsub_wrapped hpay hok.owed]; omega
        · rw [wsub_wrapped hok.owed hok.owed, e1]; omega
      · intro s hs1 hs2
        rw [net_append, liq_net, penalty_net, if_neg (fun e => hs1 (e.symm.trans hok.scoin)), if_neg (fun e => hs1 (e.symm.trans hok.scoin))]; rfl
    · rw [if_neg hle] at hov
      simp only [liqPart, bind_ok, ops_ok, pure_ok, asrt_ok, chk_ok, ex_unit, decide_eq_true_eq] at h
      obtain ⟨-, m1, h1, hcl, hgo, c', hc', -, m2, h2, rfl⟩ := h
      have h2 := penalty_ok h2
      obtain ⟨b1, b2, rfl⟩ := partialLiq_ok hc'
      obtain ⟨hsum, hp1⟩ := liq_pledged (by rw [hz]; exact hok.staked) h1
      rw [hz] at hsum
      have s1 := hok.staked
      have s2 := hok.owed
      generalize hA : e.k.cv (mul (ofU x.toLiq) (div (ofU t.amount) (ofU x.pay))) = A at *
      generalize hB : e.k.cv (mul (ofU x.toOwner) (div (ofU t.amount) (ofU x.pay))) = B at *
      generalize hC : e.k.cv (mul (ofU c.owed) (div (ofU t.amount) (ofU x.pay))) = C at *
      have hw : wadd A B = A + B := wadd_eq (by omega)
      rw [hw] at hgo b1 hc' ⊢
      refine ⟨inv_update (σ := σ) (m := m2) (n := { c with staked := c.staked - (A + B), owed := c.owed - C })
          I hfc rfl rfl rfl rfl ?_ ?_ ?_, ?_, _, execAll_trans h1 h2, ?_, ?_⟩
      · dsimp only; omega
      · dsimp only; omega
      · intro r s
        rw [execAll_pledged_frame h2 (penalty_plain _ _ _), hp1]
        dsimp only
        split <;> omega
      · intro id hf' _; exact ids_update (k := e.k) (σ := { σ with mem := m2 }) hf' hfc rfl
      · rw [net_append, liq_net, penalty_net, if_pos hok.scoin, if_pos hok.scoin,
          debt_update (σ := { σ with mem := m2 }) (n := { c with staked := c.staked - (A + B), owed := c.owed - C })
            I.good.sorted hfc rfl rfl, if_pos hok.scoin, hov, wsub_wrapped ht (by omega)]
        dsimp only
        omega
      · intro s hs1 hs2
        rw [net_append, liq_net, penalty_net, if_neg (fun e => hs1 (e.symm.trans hok.scoin)), if_neg (fun e => hs1 (e.symm.trans hok.scoin))]; rfl

/-! ## Settling interest -/

theorem getInterest_lt {e : Env} (he : e.Ok) {c : Cdp} {i : Nat} (h : getInterest e c = .ok i) : i < U64 := by
  unfold getInterest at h
  split at h
  · cases h; decide
  · split at h
    · cases h
    · rename_i j hj
      cases h; exact he _ _ _ _ _ hj

theorem settleOne_step {k : Conv} {e : Env} {σ σ' : St} {cid : Nat} (hk : e.k = k) (he : e.Ok) (I : Inv k σ)
    (h : settleOne e σ cid = .ok σ') : Step k σ σ' none 0 := by
  subst hk
  unfold settleOne at h
  cases hf : find σ.cdps cid with
  | none => rw [hf] at h; cases h
  | some c =>
    rw [hf] at h
    simp only [bind_ok, chk_ok, ex_unit, pure_ok, decide_eq_true_eq, ops_ok] at h
    obtain ⟨-, -, -, i, hi, m1, h1, m2, hmi, c', hc', rfl⟩ := h
    have hci : c.id = cid := I.good.ids _ _ hf
    have hfc : find σ.cdps c.id = some c := by rw [hci]; exact hf
    have hok := I.ok _ _ hf
    obtain ⟨b1, b2, rfl⟩ := addStake_ok hok (by decide) (getInterest_lt he hi) hc'
    have hsi := sellInterest_ok hmi
    refine ⟨inv_update (σ := σ) (m := m2) (n := { c with height := e.height, staked := c.staked + 0, owed := c.owed + i })
      I hfc rfl rfl rfl rfl b1 b2 ?_, ?_, _, execAll_trans h1 hsi, ?_, ?_⟩
    · intro r s
      rw [execAll_pledged_frame hsi (interest_plain _ _ _ _), execAll_pledged_frame h1 (by simp)]
      dsimp only
      split <;> omega
    · intro id hf' _; exact ids_update (k := e.k) (σ := { σ with mem := m2 }) hf' hfc rfl
    · rw [net_append, interest_net, net_addFree, if_pos hok.scoin,
        debt_update (σ := { σ with mem := m2 }) (n := { c with height := e.height, staked := c.staked + 0, owed := c.owed + i })
          I.good.sorted hfc rfl rfl, if_pos hok.scoin]
      simp only [net_nil]
      omega
    · intro s hs1 hs2
      rw [net_append, interest_net, net_addFree, if_neg (fun e => hs1 (e.symm.trans hok.scoin))]; rfl

theorem settleLoop_step {k : Conv} {e : Env} (hk : e.k = k) (he : e.Ok) :
    ∀ (ids seen : List Nat) {σ σ' : St}, Inv k σ → settleLoop e σ seen ids = .ok σ' → Step k σ σ' none 0
  | [], _, σ, σ', I, h => by cases h; exact Step.refl I
  | i :: is, seen, σ, σ', I, h => by
    unfold settleLoop at h
    split at h
    · cases h
    · cases h1 : settleOne e σ i with
      | fail => rw [h1] at h; cases h
      | crash => rw [h1] at h; cases h
      | ok σ1 =>
        rw [h1] at h
        have s1 := settleOne_step hk he I h1
        have := s1.trans (settleLoop_step hk he is (i :: seen) s1.inv h)
        simpa using this

theorem settle_step {k : Conv} {e : Env} {σ σ' : St} {ids : List Nat} (hk : e.k = k) (he : e.Ok) (I : Inv k σ)
    (h : settle e σ ids = .ok σ') : Step k σ σ' none 0 := by
  unfold settle at h
  simp only [bind_ok, chk_ok, ex_unit] at h
  exact settleLoop_step hk he _ _ I h.2

/-! ## Forced liquidation -/

theorem forceOne_step {k : Conv} {e : Env} {σ σ' : St} {fp : Nat} {c : Cdp} (hk : e.k = k) (I : Inv k σ)
    (hfc : find σ.cdps c.id = some c) (h : forceOne e σ fp c = .ok σ') :
    Step k σ σ' none 0 ∧ σ'.cdps = del σ.cdps c.id := by
  subst hk
  unfold forceOne at h
  simp only [bind_ok, chk_ok, ex_unit, pure_ok, ops_ok] at h
  obtain ⟨m, hm, -, rfl⟩ := h
  refine ⟨?_, rfl⟩
  have hok := I.ok _ _ hfc
  have hz := I.pledged_eq hfc
  have hpl : ∀ r s, (bal m r s .pledged : Int) = bal σ.mem r s .pledged - if c.owner = r ∧ c.bcoin = s then (c.staked : Int) else 0 := by
    unfold forceReqs at hm
    rw [List.cons_append, List.cons_append] at hm
    obtain ⟨m1, h1, h⟩ := execAll_cons_some hm
    obtain ⟨m2, h2, h⟩ := execAll_cons_some h
    have e3 : ∀ r s, bal m r s .pledged = bal m2 r s .pledged := execAll_pledged_frame h (by
      intro q hq
      simp only [List.cons_append, List.nil_append, List.mem_cons] at hq
      rcases hq with rfl | rfl | hq
      · simp
      · simp
      · cases hin : inflation e c fp with
        | none => rw [hin] at hq; simp at hq
        | some v => rw [hin] at hq; simp at hq; rcases hq with rfl | rfl <;> simp)
    intro r s
    have e1 : bal m1 r s .pledged = bal σ.mem r s .pledged := by
      rw [(opBal_pledged h1 r s).1]; unfold pledgeEff; dsimp only; split <;> rfl
    rw [e3, (opBal_pledged h2 r s).1, e1]
    unfold pledgeEff
    dsimp only
    by_cases hh : r = c.owner ∧ s = c.bcoin
    · obtain ⟨rfl, rfl⟩ := hh
      simp only [and_self, if_true]
      rw [hz, wsub_eq (Nat.le_refl _) hok.staked]; omega
    · rw [if_neg hh, if_neg (fun e => hh ⟨e.1.symm, e.2.symm⟩)]; omega
  have hnet : ∀ s, s ≠ WGRT → net s (forceReqs e c (inflation e c fp)) = - if WUSD = s then (c.owed : Int) else 0 := by
    intro s hs
    unfold forceReqs
    rw [net_append, net_subFree, net_move (op := .unpledge) rfl, net_xfer, net_move (op := .freeze) rfl, net_nil]
    cases inflation e c fp with
    | none => simp
    | some v =>
      dsimp only
      have hs' : ¬ WGRT = s := fun e => hs e.symm
      rw [net_addFree, net_move (op := .freeze) rfl, if_neg hs']; simp
  refine ⟨inv_erase (σ := σ) (m := m) I hfc hpl, fun id hf' _ => ids_erase (k := e.k) hf', _, hm, ?_, ?_⟩
  · rw [hnet _ (by decide), if_pos rfl, debt_erase (σ := { σ with mem := m }) I.good.sorted hfc, if_pos hok.scoin]
    dsimp only; omega
  · intro s hs1 hs2
    rw [hnet _ hs2, if_neg (fun e => hs1 e.symm)]; rfl

theorem forceLoop_step {k : Conv} {e : Env} {fp lim : Nat} (hk : e.k = k) :
    ∀ (cs : List Cdp) {σ σ' : St} {n n' : Nat}, Inv k σ → (∀ c ∈ cs, find σ.cdps c.id = some c) → (cs.map (·.id)).Nodup →
      forceLoop e fp lim σ n cs = .ok (σ', n') → Step k σ σ' none 0
  | [], σ, σ', n, n', I, _, _, h => by cases h; exact Step.refl I
  | c :: cs, σ, σ', n, n', I, hp, hnd, h => by
    unfold forceLoop at h
    rw [ite_eq_iff] at h
    rcases h with ⟨-, h⟩ | ⟨-, h⟩
    · cases h; exact Step.refl I
    · rw [ite_eq_iff] at h
      rcases h with ⟨-, h⟩ | ⟨-, h⟩
      · cases h; exact Step.refl I
      · cases h1 : forceOne e σ fp c with
        | fail => rw [h1] at h; cases h
        | crash => rw [h1] at h; cases h
        | ok σ1 =>
          rw [h1] at h
          obtain ⟨s1, hc⟩ := forceOne_step hk I (hp c (by simp)) h1
          simp only [List.map_cons, List.nodup_cons] at hnd
          have := s1.trans (forceLoop_step hk cs s1.inv (by
            intro x hx
            rw [hc, find_del, if_neg]
            · exact hp x (by simp [hx])
            · intro e'; exact hnd.1 (e' ▸ List.mem_map.2 ⟨x, hx, rfl⟩)) hnd.2 h)
          simpa using this

/-- The positions taken from the index are open, and no position occurs twice. -/
theorem ridx_ids {k : Conv} {σ : St} (G : Good k σ) (p : Pair) :
    (∀ x ∈ σ.ridx p, find σ.cdps x.2.id = some x.2) ∧ ((σ.ridx p).map (·.2.id)).Nodup := by
  have hm : ∀ x ∈ σ.ridx p, find σ.cdps x.2.id = some x.2 ∧ x.2.pair = p ∧ rkey k x.2 = x.1 := by
    rintro ⟨q, c⟩ hx
    exact (G.ridx p q c).1 ((mem_iff_find ltR_total (G.rs p) q c).1 hx)
  refine ⟨fun x hx => (hm x hx).1, ?_⟩
  have hs := G.rs p
  revert hm hs
  generalize σ.ridx p = l
  induction l with
  | nil => intro _ _; exact List.nodup_nil
  | cons x l ih =>
    intro hm hs
    rw [List.map_cons, List.nodup_cons]
    refine ⟨?_, ih (fun y hy => hm y (by simp [hy])) (List.Pairwise.of_cons hs)⟩
    intro h
    obtain ⟨y, hy, e⟩ := List.mem_map.1 h
    have h1 := hm x (by simp)
    have h2 := hm y (by simp [hy])
    have e1 : y.2 = x.2 := by
      have := h2.1
      rw [e, h1.1] at this
      exact (Option.some.inj this).symm
    have e2 : y.1 = x.1 := by rw [← h1.2.2, ← h2.2.2, e1]
    have := List.rel_of_pairwise_cons hs hy
    rw [e2] at this
    have hir := ltR_total.irrefl x.1
    simp_all

theorem forcePair_step {k : Conv} {e : Env} {σ σ' : St} {fp lim n : Nat} {p : Pair} (hk : e.k = k) (I : Inv k σ)
    (h : forcePair e σ fp lim p = .ok (σ', n)) : Step k σ σ' none 0 := by
  unfold forcePair at h
  rw [ite_eq_iff] at h
  rcases h with ⟨-, h⟩ | ⟨-, h⟩
  · cases h; exact Step.refl I
  · dsimp only at h
    rw [ite_eq_iff] at h
    rcases h with ⟨-, h⟩ | ⟨-, h⟩
    · obtain ⟨h1, h2⟩ := ridx_ids I.good p
      refine forceLoop_step hk _ I ?_ ?_ h
      · intro c hc
        obtain ⟨x, hx, rfl⟩ := List.mem_map.1 hc
        exact h1 x (List.takeWhile_prefix _ |>.subset hx)
      · unfold byRatio
        rw [List.map_map]
        exact List.Nodup.sublist (List.Sublist.map _ (List.takeWhile_prefix _).sublist) h2
    · cases h

theorem forceAll_step {k : Conv} {e : Env} {fp : Nat} (hk : e.k = k) :
    ∀ (ps : List Pair) {σ σ' : St} {lim : Nat}, Inv k σ → forceAll e fp σ lim ps = .ok σ' → Step k σ σ' none 0
  | [], σ, σ', lim, I, h => by cases h; exact Step.refl I
  | p :: ps, σ, σ', lim, I, h => by
    unfold forceAll at h
    cases h1 : forcePair e σ fp lim p with
    | fail => rw [h1] at h; cases h
    | crash => rw [h1] at h; cases h
    | ok x =>
      obtain ⟨σ1, n⟩ := x
      rw [h1] at h
      have s1 := forcePair_step hk I h1
      dsimp only at h
      rw [ite_eq_iff] at h
      rcases h with ⟨-, h⟩ | ⟨-, h⟩
      · cases h; exact s1
      · have := s1.trans (forceAll_step hk ps s1.inv h)
        simpa using this

theorem force_step {k : Conv} {e : Env} {σ σ' : St} {fp : Nat} {ps : List Pair} (hk : e.k = k) (I : Inv k σ)
    (h : force e σ fp ps = .ok σ') : Step k σ σ' none 0 := by
  unfold force at h
  rw [ite_eq_iff] at h
  rcases h with ⟨-, h⟩ | ⟨-, h⟩
  · cases h; exact Step.refl I
  · exact forceAll_step hk _ I h

end Verif.Cdp
