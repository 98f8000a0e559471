import Verif.Gov.Interest
import Verif.Gov.TreeLemmas

/-!
# Properties of governance

Specifications used below: `twoThirds n = n - n / 3` approvals out of `n`; `Voted` and `Requested` (Lemmas.lean) speak about
positions in the list of events; `sysSet`, `cdpSet`, `feeSet` (Params.lean) are the value the last executed proposal gave;
`inForce` (Interest.lean) is the last value set at or before a height.
-/
namespace Verif.Gov

variable {σ : Type}

def twoThirds (n : Nat) : Nat := n - n / 3

/-! ## C41: once, and by a majority -/

/-- A proposal takes effect at most once, whatever is requested and approved by whom and when. Proposal ids are transaction
hashes, so they are requested once. -/
theorem proposal_executes_at_most_once (cfg : Cfg) (ds : List RegId) (s : σ) (evs : List (Ev σ))
    (hid : (requestIds evs).Nodup) : ((run cfg (genesis ds s) evs).log.map (·.id)).Nodup :=
  (inv_run cfg ds s evs hid).once

/-- What stands behind an executed proposal: it was requested as what was executed; different members of the council in
charge approved it, each a member when approving and not later than the life of the proposal allows; their number is the
quorum computed at the request, reduced modulo 256. -/
theorem executed_by_council (cfg : Cfg) (ds : List RegId) (s : σ) (evs : List (Ev σ)) (hid : (requestIds evs).Nodup)
    (hh : ∀ h ∈ heights evs, h < U32) (d : Done) (hd : d ∈ (run cfg (genesis ds s) evs).log) :
    ∃ pre ctx post life, ∃ voters : List RegId, evs = pre ++ .request ctx d.id d.kind :: post ∧
      lifeOf (run cfg (genesis ds s) pre) d.kind = some life ∧
      voters.Nodup ∧ voters.length = minCount cfg (run cfg (genesis ds s) pre) d.kind ∧
      ∀ r ∈ voters, ∃ pre' ctx' post', evs = pre' ++ .approve ctx' d.id r :: post' ∧
        r ∈ council cfg (run cfg (genesis ds s) pre') d.kind ∧ ctx'.height ≤ ctx.height + life := by
  have hi := inv_run cfg ds s evs hid
  obtain ⟨p, hp, hk, hlen⟩ := hi.done d hd
  obtain ⟨pre, ctx, post, n, he, hl, hexp, hmin⟩ := hi.prop d.id p hp
  rw [hk] at he hl hmin
  refine ⟨pre, ctx, post, n, (run cfg (genesis ds s) evs).approvals d.id, he, hl, hi.nodup d.id, hlen.trans hmin, ?_⟩
  intro r hr
  obtain ⟨p', hp', pre', ctx', post', he', hc', hx'⟩ := hi.voted d.id r hr
  rw [hp] at hp'
  cases hp'
  rw [hk] at hc'
  refine ⟨pre', ctx', post', he', hc', ?_⟩
  have hlt : ctx'.height < U32 := hh _ (by rw [he', heights_append]; simp [heights])
  rw [Nat.mod_eq_of_lt hlt, hexp] at hx'
  have h1 := Nat.mod_le (wadd ctx.height n) U32
  have h2 : wadd ctx.height n ≤ ctx.height + n := Nat.mod_le _ _
  omega

/-- An executed proposal was approved by at least two thirds of the council, provided the council had fewer than 383
members when it was requested. Missing: larger councils (`quorum_is_truncated_violated`), and the size of the council at
the time of execution (`majority_of_current_council_violated`). -/
theorem executed_by_two_thirds_partial (cfg : Cfg) (ds : List RegId) (s : σ) (evs : List (Ev σ))
    (hid : (requestIds evs).Nodup) (hh : ∀ h ∈ heights evs, h < U32) (d : Done)
    (hd : d ∈ (run cfg (genesis ds s) evs).log) :
    ∃ pre ctx post life, ∃ voters : List RegId, evs = pre ++ .request ctx d.id d.kind :: post ∧
      lifeOf (run cfg (genesis ds s) pre) d.kind = some life ∧
      voters.Nodup ∧
      (0 < (council cfg (run cfg (genesis ds s) pre) d.kind).length →
        (council cfg (run cfg (genesis ds s) pre) d.kind).length < 383 →
        voters.length = twoThirds (council cfg (run cfg (genesis ds s) pre) d.kind).length) ∧
      ∀ r ∈ voters, ∃ pre' ctx' post', evs = pre' ++ .approve ctx' d.id r :: post' ∧
        r ∈ council cfg (run cfg (genesis ds s) pre') d.kind ∧ ctx'.height ≤ ctx.height + life := by
  obtain ⟨pre, ctx, post, life, voters, h1, h2, h3, h4, h5⟩ := executed_by_council cfg ds s evs hid hh d hd
  refine ⟨pre, ctx, post, life, voters, h1, h2, h3, ?_, h5⟩
  intro hpos hlt
  rw [h4]
  unfold council minCount at *
  unfold twoThirds
  by_cases hb : byDelegates d.kind = true
  · rw [if_pos hb] at hpos hlt ⊢
    rw [if_pos hb]
    have hne : ¬ (run cfg (genesis ds s) pre).delegates = [] := by
      intro h; rw [h] at hpos; simp at hpos
    rw [if_neg hne]
    omega
  · rw [if_neg hb] at hpos hlt ⊢
    rw [if_neg hb]
    omega

/-- The approval that completes the quorum executes the proposal, if its check and execution succeed then. -/
theorem last_approval_executes (cfg : Cfg) (ctx : Ctx σ) (st s : State σ) (id : Nat) (r : RegId) (p : Proposal)
    (hp : st.proposals id = some p) (hc : r ∈ council cfg st p.kind) (hn : r ∉ st.approvals id)
    (hm : (st.approvals id).length + 1 = p.minCount) (hx : ctx.height ≤ p.expiry)
    (hk : check cfg ctx (noted st id r) false p.kind = true) (he : exec cfg ctx (noted st id r) p.kind = some s) :
    approve cfg ctx st id r = some { s with log := s.log ++ [⟨id, ctx.height, p.kind⟩] } :=
  approve_spec.mpr ⟨p, hp, hc, by omega, Nat.le_trans (Nat.mod_le _ _) hx, hn, Or.inr ⟨hm, hk, s, he, rfl⟩⟩

/-- Once executed, a proposal accepts no further approval. -/
theorem executed_is_closed (cfg : Cfg) (ds : List RegId) (s : σ) (evs : List (Ev σ)) (hid : (requestIds evs).Nodup)
    (d : Done) (hd : d ∈ (run cfg (genesis ds s) evs).log) (ctx : Ctx σ) (r : RegId) :
    approve cfg ctx (run cfg (genesis ds s) evs) d.id r = none := by
  obtain ⟨p, hp, _, hlen⟩ := (inv_run cfg ds s evs hid).done d hd
  cases h : approve cfg ctx (run cfg (genesis ds s) evs) d.id r with
  | none => rfl
  | some st' =>
    obtain ⟨p', hp', _, hlt, _⟩ := approve_spec.mp h
    rw [hp] at hp'
    cases hp'
    omega

/-! A configuration for witnesses: the default governor is 1, 11 producers. -/

def cfg0 : Cfg := ⟨1, 11, 3600, fun _ => some true⟩

def ctx0 (h : Nat) : Ctx Unit := ⟨h, true, fun _ => true, fun _ => true, fun _ s => some s, fun _ s => some s⟩

/-- With three delegates, two approvals suffice and are needed; the third comes too late. -/
example :
    let evs : List (Ev Unit) := [.request (ctx0 10) 7 (.bpSize 21 5000), .approve (ctx0 11) 7 1, .approve (ctx0 11) 7 1,
      .approve (ctx0 12) 7 9]
    (run cfg0 (genesis [1, 2, 3] ()) evs).log = [] ∧
    (run cfg0 (genesis [1, 2, 3] ()) (evs ++ [.approve (ctx0 12) 7 3])).log = [⟨7, 12, .bpSize 21 5000⟩] ∧
    (run cfg0 (genesis [1, 2, 3] ()) (evs ++ [.approve (ctx0 12) 7 3, .approve (ctx0 12) 7 2])).log =
      [⟨7, 12, .bpSize 21 5000⟩] := by decide +kernel

/-- Events that make 10, 11, … governors, decided by the single delegate 1. -/
def grow : Nat → List (Ev Unit)
  | 0 => []
  | n + 1 => grow n ++ [.request (ctx0 10) n (.bpmc (n + 10) 1), .approve (ctx0 10) n 1]

/-- The proposal stored under an id. -/
def withProp (st : State Unit) (id : Nat) (p : Proposal) : State Unit :=
  { st with proposals := fun q => if q = id then some p else st.proposals q }

theorem grow_spec (n : Nat) :
    let st := run cfg0 (genesis [1] ()) (grow n)
    st.delegates = [1] ∧ (∀ k, st.sys k = none) ∧ (∀ j, n ≤ j → st.approvals j = []) ∧
      st.govs = (List.range n).map (· + 10) := by
  induction n with
  | zero => exact ⟨rfl, fun _ => rfl, fun _ _ => rfl, rfl⟩
  | succ n ih =>
    obtain ⟨h1, h2, h3, h4⟩ := ih
    have hrun : run cfg0 (genesis [1] ()) (grow (n + 1)) =
        step cfg0 (step cfg0 (run cfg0 (genesis [1] ()) (grow n)) (.request (ctx0 10) n (.bpmc (n + 10) 1)))
          (.approve (ctx0 10) n 1) := by
      simp [grow, run, List.foldl_append]
    generalize run cfg0 (genesis [1] ()) (grow n) = st at h1 h2 h3 h4 hrun
    have hng : (governors cfg0 st).contains (n + 10) = false := by
      unfold governors
      rw [h4]
      split
      · simp [cfg0]
      · simp
    have hlife : lifeOf st (.bpmc (n + 10) 1) = some 1200 := by
      simp only [lifeOf, getParam, h2]
      decide
    have hchk : ∀ b, check cfg0 (ctx0 10) st b (.bpmc (n + 10) 1) = true := by
      intro b
      simp only [check, hng]
      rfl
    have hreq : request cfg0 (ctx0 10) st n (.bpmc (n + 10) 1) = some (withProp st n ⟨.bpmc (n + 10) 1, 1210, 1⟩) := by
      unfold request
      rw [if_pos (hchk true), hlife]
      have hm : minCount cfg0 st (.bpmc (n + 10) 1) = 1 := by
        simp [minCount, byDelegates, h1]
      simp only [requestRest, hm]
      rfl
    generalize hs1 : (withProp st n ⟨.bpmc (n + 10) 1, 1210, 1⟩) = st1 at hreq
    have hg1 : st1.govs = st.govs := by subst hs1; rfl
    have ha1 : st1.approvals = st.approvals := by subst hs1; rfl
    have hd1 : st1.delegates = [1] := by subst hs1; exact h1
    have hsys1 : st1.sys = st.sys := by subst hs1; rfl
    have happ := (approve_spec (cfg := cfg0) (ctx := ctx0 10) (st := st1)
      (st' := { noted st1 n 1 with govs := addGov st1.govs (n + 10),
                                   log := st1.log ++ [⟨n, 10, .bpmc (n + 10) 1⟩] }) (id := n) (r := 1)).mpr
      ⟨⟨.bpmc (n + 10) 1, 1210, 1⟩, by subst hs1; simp [withProp], by simp [council, byDelegates, hd1],
        by rw [ha1, h3 n (Nat.le_refl _)]; show 0 < 1; decide, by show 10 % U32 ≤ 1210; decide,
        by rw [ha1, h3 n (Nat.le_refl _)]; simp,
        Or.inr ⟨by rw [ha1, h3 n (Nat.le_refl _)]; rfl, by
          have : governors cfg0 (noted st1 n 1) = governors cfg0 st := by
            simp only [governors, noted, hg1]
          simp only [check, this, hng]
          rfl, { noted st1 n 1 with govs := addGov st1.govs (n + 10) }, rfl, rfl⟩⟩
    rw [hrun]
    simp only [step, hreq, Option.getD_some, happ]
    refine ⟨hd1, fun k => by rw [← h2 k]; exact congrFun hsys1 k, ?_, ?_⟩
    · intro j hj
      show (if j = n then _ else st1.approvals j) = []
      rw [if_neg (by omega), ha1]
      exact h3 j (by omega)
    · rw [hg1, h4]
      unfold addGov
      have : ((List.range n).map (· + 10)).contains (n + 10) = false := by simp
      rw [this]
      simp [List.range_succ]

theorem run_append (cfg : Cfg) (st : State σ) (a b : List (Ev σ)) : run cfg st (a ++ b) = run cfg (run cfg st a) b :=
  List.foldl_append

/-- Two approvals out of any number of governors for which the quorum is 2 modulo 256. -/
theorem two_approvals (st : State Unit) (hsys : ∀ k, st.sys k = none) (ha : st.approvals 1000 = [])
    (hm : (st.govs.length - st.govs.length / 3) % 256 = 2) (h10 : 10 ∈ st.govs) (h11 : 11 ∈ st.govs) :
    ⟨1000, 10, .sysParam [(24, 1)]⟩ ∈ (run cfg0 st [.request (ctx0 10) 1000 (.sysParam [(24, 1)]),
      .approve (ctx0 10) 1000 10, .approve (ctx0 10) 1000 11]).log := by
  have hgov : governors cfg0 st = st.govs := by
    unfold governors
    rw [if_neg (by intro h; rw [h] at h10; cases h10)]
  have hreq : request cfg0 (ctx0 10) st 1000 (.sysParam [(24, 1)]) = some (withProp st 1000 ⟨.sysParam [(24, 1)], 1210, 2⟩) := by
    unfold request
    rw [if_pos (show check cfg0 (ctx0 10) st true (.sysParam [(24, 1)]) = true from rfl)]
    have hlife : lifeOf st (.sysParam [(24, 1)]) = some 1200 := by
      simp only [lifeOf, getParam, hsys]
      decide
    have hmin : minCount cfg0 st (.sysParam [(24, 1)]) = 2 := by
      simp [minCount, byDelegates, hgov, hm]
    rw [hlife]
    simp only [requestRest, hmin]
    rfl
  generalize hs1 : (withProp st 1000 ⟨.sysParam [(24, 1)], 1210, 2⟩) = st1 at hreq
  have hg1 : governors cfg0 st1 = st.govs := by subst hs1; exact hgov
  have ha1 : st1.approvals 1000 = [] := by subst hs1; exact ha
  have hp1 : st1.proposals 1000 = some ⟨.sysParam [(24, 1)], 1210, 2⟩ := by subst hs1; simp [withProp]
  have h1 := (approve_spec (cfg := cfg0) (ctx := ctx0 10) (st := st1) (st' := noted st1 1000 10) (id := 1000)
    (r := 10)).mpr ⟨_, hp1, by simp [council, byDelegates, hg1, h10], by rw [ha1]; decide, by decide,
      by rw [ha1]; simp, Or.inl ⟨by rw [ha1]; decide, rfl⟩⟩
  have ha2 : (noted st1 1000 10).approvals 1000 = [10] := by simp [noted, ha1]
  have hg2 : governors cfg0 (noted st1 1000 10) = st.govs := hg1
  have h2 := (approve_spec (cfg := cfg0) (ctx := ctx0 10) (st := noted st1 1000 10)
    (st' := { setSys (noted (noted st1 1000 10) 1000 11) [(24, 1)] with
                log := st1.log ++ [⟨1000, 10, .sysParam [(24, 1)]⟩] }) (id := 1000) (r := 11)).mpr
    ⟨_, hp1, by simp [council, byDelegates, hg2, h11], by rw [ha2]; decide, by decide, by rw [ha2]; decide,
      Or.inr ⟨by rw [ha2]; rfl, rfl, setSys (noted (noted st1 1000 10) 1000 11) [(24, 1)], rfl, rfl⟩⟩
  simp only [run, List.foldl_cons, List.foldl_nil, step, hreq, Option.getD_some, h1, h2]
  simp

/-- The stored quorum is one byte: with 386 governors, two approvals execute a proposal although 258 are needed. The
governor list can be brought to any length (`grow_spec`). -/
theorem quorum_is_truncated_violated : ∃ evs : List (Ev Unit),
    let st := run cfg0 (genesis [1] ()) evs
    let evs' := [.request (ctx0 10) 1000 (.sysParam [(24, 1)]), .approve (ctx0 10) 1000 10, .approve (ctx0 10) 1000 11]
    (governors cfg0 st).length = 386 ∧ twoThirds 386 = 258 ∧
    ⟨1000, 10, .sysParam [(24, 1)]⟩ ∈ (run cfg0 (genesis [1] ()) (evs ++ evs')).log := by
  refine ⟨grow 386, ?_⟩
  obtain ⟨_, h2, h3, h4⟩ := grow_spec 386
  have hgov : governors cfg0 (run cfg0 (genesis [1] ()) (grow 386)) =
      (run cfg0 (genesis [1] ()) (grow 386)).govs := by
    unfold governors
    rw [if_neg]
    rw [h4]
    intro h
    have := congrArg List.length h
    simp at this
  refine ⟨by rw [hgov, h4]; simp, by decide, ?_⟩
  rw [run_append]
  exact two_approvals _ h2 (h3 1000 (by omega)) (by rw [h4]; simp) (by rw [h4]; simp) (by rw [h4]; simp)

/-- The quorum is that of the request: two approvals given while there were three governors execute a proposal when there
are nine, of whom six would be needed. -/
theorem majority_of_current_council_violated : ∃ evs : List (Ev Unit),
    let st := run cfg0 (genesis [1] ()) evs
    let last := Ev.approve (ctx0 20) 100 11
    (governors cfg0 st).length = 9 ∧ twoThirds 9 = 6 ∧ (st.approvals 100).length = 1 ∧ st.log.all (·.id ≠ 100) = true ∧
    (run cfg0 (genesis [1] ()) (evs ++ [last])).log.any (fun d => d.id = 100) = true := by
  refine ⟨grow 3 ++ [.request (ctx0 10) 100 (.sysParam [(24, 1)]), .approve (ctx0 10) 100 10] ++
    ((List.range 6).map (· + 3)).flatMap (fun i => [.request (ctx0 10) i (.bpmc (i + 10) 1), .approve (ctx0 10) i 1]), ?_⟩
  decide +kernel

/-! ## C42: parameters read back as set -/

/-- A system parameter reads as the value the last executed proposal gave it, if that is not zero, and as its default if
none was given; nothing else changes it. Missing: the value zero (`zero_parameter_violated`). -/
theorem sys_param_reads_back_partial (cfg : Cfg) (ds : List RegId) (s : σ) (evs : List (Ev σ)) (k d : Nat)
    (hk : find sysTable k = some d) :
    (∀ v, sysSet k (run cfg (genesis ds s) evs).log = some v → v ≠ 0 →
      getParam (run cfg (genesis ds s) evs) k = some v) ∧
    (sysSet k (run cfg (genesis ds s) evs).log = none → getParam (run cfg (genesis ds s) evs) k = some d) := by
  have h := stored_sys cfg ds s k evs
  unfold getParam
  rw [hk, h]
  constructor
  · intro v hv hne
    rw [hv]
    simp [present, hne]
  · intro hn
    rw [hn]
    rfl

/-- The same for the CDP parameters of a pair. -/
theorem cdp_param_reads_back_partial (cfg : Cfg) (ds : List RegId) (s : σ) (evs : List (Ev σ)) (p : Pair) (k d : Nat)
    (hk : find cdpTable k = some d) :
    (∀ v, cdpSet p k (run cfg (genesis ds s) evs).log = some v → v ≠ 0 →
      getCdp (run cfg (genesis ds s) evs) p k = some v) ∧
    (cdpSet p k (run cfg (genesis ds s) evs).log = none → getCdp (run cfg (genesis ds s) evs) p k = some d) := by
  have h := stored_cdp cfg ds s p k evs
  unfold getCdp
  rw [hk, h]
  constructor
  · intro v hv hne
    rw [hv]
    simp [present, hne]
  · intro hn
    rw [hn]
    rfl

/-- A miner fee reads as the last executed proposal set it, else the built-in fee. -/
theorem miner_fee_reads_back (cfg : Cfg) (ds : List RegId) (s : σ) (evs : List (Ev σ)) (t : Nat) (q : String)
    (builtin : Option Nat) :
    getFee (run cfg (genesis ds s) evs) builtin t q =
      match feeSet t q (run cfg (genesis ds s) evs).log with
      | some v => some v
      | none => builtin := by
  have h := stored_fee cfg ds s t q evs
  unfold getFee
  cases hf : (run cfg (genesis ds s) evs).fee t q with
  | none => rw [← h, hf]; rfl
  | some v =>
    have hv := fee_not_zero cfg ds s t q evs v hf
    rw [← h, hf]
    simp [present, hv]

/-- Values that passed the check are in the range of their parameter, and only known parameters are set. -/
theorem set_params_in_range (cfg : Cfg) (ctx : Ctx σ) (st : State σ) (ps : List (Nat × Nat)) (p : Pair) :
    (check cfg ctx st false (.sysParam ps) = true → ∀ e ∈ ps, inRange sysRange e.1 e.2 = true ∧
      (find sysTable e.1).isSome = true) ∧
    (check cfg ctx st false (.cdpParam p ps) = true → ∀ e ∈ ps, inRange cdpRange e.1 e.2 = true ∧
      (find cdpTable e.1).isSome = true) := by
  constructor
  · intro h e he
    simp only [check, Bool.and_eq_true] at h
    have := List.all_eq_true.mp h.2 e he
    simp only [sysEntryOk, Bool.and_eq_true] at this
    exact ⟨this.1.2, this.1.1.1⟩
  · intro h e he
    simp only [check, Bool.and_eq_true] at h
    have := List.all_eq_true.mp h.2 e he
    simp only [cdpEntryOk, Bool.and_eq_true] at this
    exact ⟨this.1.2, this.1.1⟩

/-- Every parameter has a default and a range, and the default lies in the range. -/
theorem defaults_in_range :
    (∀ e ∈ sysTable, inRange sysRange e.1 e.2 = true) ∧ (∀ e ∈ cdpTable, inRange cdpRange e.1 e.2 = true) ∧
    sysTable.map (·.1) = sysRange.map (·.1) ∧ cdpTable.map (·.1) = cdpRange.map (·.1) ∧
    (sysTable.map (·.1)).Nodup ∧ (cdpTable.map (·.1)).Nodup := by decide

/-- A parameter set to zero keeps its default: governance cannot switch the inflated block reward off (102), nor make
cross-chain swaps free (28), although both values are permitted. The same happens to a CDP parameter (3). -/
theorem zero_parameter_violated : ∃ evs : List (Ev Unit),
    let st := run cfg0 (genesis [1] ()) evs
    sysSet 102 st.log = some 0 ∧ getParam st 102 = some 20000000 ∧ sysSet 28 st.log = some 0 ∧ getParam st 28 = some 20 ∧
    cdpSet ("WICC", "WUSD") 3 st.log = some 0 ∧ getCdp st ("WICC", "WUSD") 3 = some 8000 := by
  refine ⟨[.request (ctx0 10) 1 (.sysParam [(102, 0), (28, 0)]), .approve (ctx0 10) 1 1,
    .request (ctx0 10) 2 (.cdpParam ("WICC", "WUSD") [(3, 0)]), .approve (ctx0 10) 2 1], ?_⟩
  decide +kernel

/-- A parameter set to another value reads back. -/
example : ∃ evs : List (Ev Unit),
    let st := run cfg0 (genesis [1] ()) evs
    sysSet 28 st.log = some 7 ∧ getParam st 28 = some 7 ∧ cdpSet ("WICC", "WUSD") 3 st.log = some 9000 ∧
    getCdp st ("WICC", "WUSD") 3 = some 9000 ∧ feeSet 4 "WICC" st.log = some 5 ∧ getFee st (some 9) 4 "WICC" = some 5 := by
  refine ⟨[.request (ctx0 10) 1 (.sysParam [(28, 7)]), .approve (ctx0 10) 1 1,
    .request (ctx0 10) 2 (.cdpParam ("WICC", "WUSD") [(3, 9000)]), .approve (ctx0 10) 2 1,
    .request (ctx0 10) 3 (.minerFee 4 "WICC" 5), .approve (ctx0 10) 3 1], ?_⟩
  decide +kernel

/-! ## C43: CDP thresholds -/

/-- As long as every executed proposal changes at most one of the four ratios, the ratios of every pair stay ordered and
force times discount stays at least one. Missing: a proposal that changes two of them at once
(`cdp_thresholds_violated`). -/
theorem cdp_thresholds_ordered_partial (cfg : Cfg) (ds : List RegId) (s : σ) (evs : List (Ev σ))
    (h1 : ∀ d ∈ (run cfg (genesis ds s) evs).log, ∀ p ps, d.kind = .cdpParam p ps → OneRatio ps) (p : Pair) :
    RatiosOrdered (run cfg (genesis ds s) evs) p :=
  (ratios_run cfg ds s evs).2 h1 p

/-- Whatever is executed, the force ratio stays at most 2 and the discount at most 1. -/
theorem cdp_ratios_bounded (cfg : Cfg) (ds : List RegId) (s : σ) (evs : List (Ev σ)) (p : Pair) (c d : Nat)
    (hc : getCdp (run cfg (genesis ds s) evs) p 7 = some c) (hd : getCdp (run cfg (genesis ds s) evs) p 8 = some d) :
    c ≤ 20000 ∧ d ≤ 10000 :=
  (ratios_run cfg ds s evs).1.reads p hc hd

/-- Each value is tested against the stored values of the others, not against the other values of the same proposal: a
proposal that lowers the start ratio to 1.55 and raises the liquidation ratio to 1.8 passes, and afterwards a CDP may be
opened that can be liquidated at once. -/
theorem cdp_thresholds_violated : ∃ evs : List (Ev Unit),
    let st := run cfg0 (genesis [1] ()) evs
    getCdp st ("WICC", "WUSD") 4 = some 15500 ∧ getCdp st ("WICC", "WUSD") 5 = some 18000 ∧
    getCdp st ("WICC", "WUSD") 7 = some 10400 := by
  refine ⟨[.request (ctx0 10) 1 (.cdpParam ("WICC", "WUSD") [(4, 15500), (5, 18000)]), .approve (ctx0 10) 1 1], ?_⟩
  decide +kernel

/-- One ratio at a time: accepted when in order, refused when not. -/
example : ∃ evs : List (Ev Unit),
    let st := run cfg0 (genesis [1] ()) evs
    getCdp st ("WICC", "WUSD") 4 = some 18500 ∧ getCdp st ("WICC", "WUSD") 5 = some 15000 ∧ st.log.length = 1 := by
  refine ⟨[.request (ctx0 10) 1 (.cdpParam ("WICC", "WUSD") [(4, 18500)]), .approve (ctx0 10) 1 1,
    .request (ctx0 10) 2 (.cdpParam ("WICC", "WUSD") [(5, 18600)]), .approve (ctx0 10) 2 1], ?_⟩
  decide +kernel

/-! ## C38: interest periods -/

/-- The segments interest is computed for cover every height of the range exactly once, and no height outside it. -/
theorem interest_periods_partition (cfg : Cfg) (ds : List RegId) (s : σ) (evs : List (Ev σ)) (p : Pair)
    (hh : (heights evs).Pairwise (· ≤ ·)) (b e x : Nat) :
    (((segments ((run cfg (genesis ds s) evs).changes p) b e).filter (·.has x)).length =
      if b ≤ x ∧ x ≤ e then 1 else 0) := by
  have hs := (interest_run cfg ds s p evs hh).sorted
  by_cases h : b ≤ x ∧ x ≤ e
  · obtain ⟨sg, h1, _⟩ := segments_at hs h.1 h.2
    rw [h1, if_pos h]
    rfl
  · rw [if_neg h, segments_out hs (by omega)]
    rfl

/-- Each height is charged under the parameters in force there, provided A was never set to zero. Missing: A set to zero
(`interest_param_zero_violated`). -/
theorem interest_params_in_force_partial (cfg : Cfg) (ds : List RegId) (s : σ) (evs : List (Ev σ)) (p : Pair)
    (hh : (heights evs).Pairwise (· ≤ ·)) (hz : NoZeroA (run cfg (genesis ds s) evs).log) (b e x : Nat) (h1 : b ≤ x)
    (h2 : x ≤ e) : ∃ sg, (segments ((run cfg (genesis ds s) evs).changes p) b e).filter (·.has x) = [sg] ∧
      sg.p = inForce p (run cfg (genesis ds s) evs).log x := by
  have hi := interest_run cfg ds s p evs hh
  obtain ⟨sg, a, b⟩ := segments_at hi.sorted h1 h2
  exact ⟨sg, a, b.trans (hi.val hz x)⟩

/-- Between consecutive segments one block is not charged: the charged blocks, plus one per change, are the elapsed
blocks. -/
theorem interest_blocks_sum (cfg : Cfg) (ds : List RegId) (s : σ) (evs : List (Ev σ)) (p : Pair)
    (hh : (heights evs).Pairwise (· ≤ ·)) (b e : Nat) (h : b ≤ e) :
    ((segments ((run cfg (genesis ds s) evs).changes p) b e).map (fun sg => sg.hi - sg.lo)).sum +
      (segments ((run cfg (genesis ds s) evs).changes p) b e).length = e - b + 1 :=
  segments_blocks (interest_run cfg ds s p evs hh).sorted h

/-- A is set to zero at height 10 and B to 5 at height 20: the history records A = 2 from height 20 on. -/
theorem interest_param_zero_violated : ∃ evs : List (Ev Unit),
    let st := run cfg0 (genesis [1] ()) evs
    (inForce ("WICC", "WUSD") st.log 15, inForce ("WICC", "WUSD") st.log 25) = (⟨0, 1⟩, ⟨0, 5⟩) ∧
    segments (st.changes ("WICC", "WUSD")) 12 30 = [⟨12, 19, ⟨0, 1⟩⟩, ⟨20, 30, ⟨2, 5⟩⟩] := by
  refine ⟨[.request (ctx0 10) 1 (.cdpParam ("WICC", "WUSD") [(10, 0)]), .approve (ctx0 10) 1 1,
    .request (ctx0 20) 2 (.cdpParam ("WICC", "WUSD") [(11, 5)]), .approve (ctx0 20) 2 1], ?_⟩
  decide +kernel

/-- Two changes inside the range: three segments. -/
example : ∃ evs : List (Ev Unit),
    let st := run cfg0 (genesis [1] ()) evs
    (heights evs).Pairwise (· ≤ ·) ∧
    segments (st.changes ("WICC", "WUSD")) 5 30 = [⟨5, 9, ⟨2, 1⟩⟩, ⟨10, 19, ⟨3, 1⟩⟩, ⟨20, 30, ⟨3, 5⟩⟩] := by
  refine ⟨[.request (ctx0 10) 1 (.cdpParam ("WICC", "WUSD") [(10, 3)]), .approve (ctx0 10) 1 1,
    .request (ctx0 20) 2 (.cdpParam ("WICC", "WUSD") [(11, 5)]), .approve (ctx0 20) 2 1], ?_⟩
  decide +kernel

/-! ## C72: the governor list -/

/-- Adding or removing a governor changes exactly that, as long as the stored list is empty neither before nor after.
Missing: the first addition and the last removal (`first_governor_violated`). -/
theorem governor_list_changes_partial (cfg : Cfg) (ctx : Ctx σ) (st st' : State σ) (r : RegId) (op : Nat)
    (h : exec cfg ctx st (.bpmc r op) = some st') (hb : st.govs ≠ []) (ha : st'.govs ≠ []) (x : RegId) :
    (op = 1 → (x ∈ governors cfg st' ↔ x ∈ governors cfg st ∨ x = r)) ∧
    (op = 2 → (x ∈ governors cfg st' ↔ x ∈ governors cfg st ∧ x ≠ r)) ∧ (op = 1 ∨ op = 2) := by
  have e1 : governors cfg st = st.govs := by simp [governors, hb]
  have e2 : governors cfg st' = st'.govs := by simp [governors, ha]
  rw [e1, e2]
  simp only [exec] at h
  by_cases h2 : op = 2
  · rw [if_pos h2] at h
    cases h
    subst h2
    refine ⟨fun hh => absurd hh (by decide), fun _ => ?_, Or.inr rfl⟩
    simp [eraseGov]
  · rw [if_neg h2] at h
    by_cases h1 : op = 1
    · rw [if_pos h1] at h
      cases h
      refine ⟨fun _ => ?_, fun hh => absurd hh h2, Or.inl h1⟩
      dsimp only [addGov]
      split
      · rename_i hm
        simp only [List.contains_eq_mem, decide_eq_true_eq] at hm
        constructor
        · exact Or.inl
        · rintro (hx | rfl)
          · exact hx
          · exact hm
      · simp
    · rw [if_neg h1] at h
      cases h

/-- The first governor added replaces the default governor, whom nobody voted out; removing the only governor brings the
default governor back. -/
theorem first_governor_violated : ∃ evs evs' : List (Ev Unit),
    governors cfg0 (run cfg0 (genesis [1] ()) []) = [1] ∧
    governors cfg0 (run cfg0 (genesis [1] ()) evs) = [10] ∧
    governors cfg0 (run cfg0 (genesis [1] ()) (evs ++ evs')) = [1] := by
  refine ⟨[.request (ctx0 10) 1 (.bpmc 10 1), .approve (ctx0 10) 1 1],
    [.request (ctx0 10) 2 (.bpmc 10 2), .approve (ctx0 10) 2 1], ?_⟩
  decide +kernel

/-- Adding a second governor keeps the first. -/
example : governors cfg0 (run cfg0 (genesis [1] ()) (grow 2)) = [10, 11] := by decide +kernel

/-! ## C73: the number of block producers -/

/-- The counts stored are never zero. -/
theorem bps_positive (cfg : Cfg) (ds : List RegId) (s : σ) (hcfg : cfg.bps ≠ 0) (evs : List (Ev σ)) :
    let st := run cfg (genesis ds s) evs
    (∀ eff n, st.bpNew = some (eff, n) → n ≠ 0) ∧ (∀ n, st.bpCur = some n → n ≠ 0) ∧ ∀ h, totalBps cfg st h ≠ 0 := by
  have key : ∀ st : State σ, (∀ eff n, st.bpNew = some (eff, n) → n ≠ 0) → (∀ n, st.bpCur = some n → n ≠ 0) →
      ∀ h, totalBps cfg st h ≠ 0 := by
    intro st h1 h2 h
    have hcur : (present st.bpCur).getD cfg.bps ≠ 0 := by
      cases hb : st.bpCur with
      | none => exact hcfg
      | some v => simp [present, h2 v hb]
    unfold totalBps
    cases hn : st.bpNew with
    | none => exact hcur
    | some pr =>
      obtain ⟨eff, n⟩ := pr
      have := h1 eff n hn
      dsimp only
      split
      · exact hcur
      · split
        · exact this
        · exact hcur
  suffices h : (∀ eff n, (run cfg (genesis ds s) evs).bpNew = some (eff, n) → n ≠ 0) ∧
      (∀ n, (run cfg (genesis ds s) evs).bpCur = some n → n ≠ 0) by
    exact ⟨h.1, h.2, key _ h.1 h.2⟩
  induction evs using List.reverseRecOn with
  | nil => exact ⟨fun _ _ h => by simp [run, genesis] at h, fun _ h => by simp [run, genesis] at h⟩
  | append_singleton evs e ih =>
    rw [run_snoc]
    generalize run cfg (genesis ds s) evs = st at ih ⊢
    rcases step_effect cfg st e with ⟨_, hs⟩ | ⟨ctx, id, r, p, s', _, _, hc, hx, he⟩
    · rw [hs.bpNew, hs.bpCur]; exact ih
    · rw [he]
      cases hk : p.kind with
      | sysParam ps =>
        rw [hk] at hx; simp only [exec, Option.some.injEq] at hx; subst hx
        have := setSys_frame ps (noted st id r)
        dsimp only
        rw [this.2.2.2.2.2.2.2.2.1, this.2.2.2.2.2.2.2.2.2]
        exact ih
      | bpmc r op =>
        rw [hk] at hx; simp only [exec] at hx
        split at hx
        · cases hx; exact ih
        · split at hx
          · cases hx; exact ih
          · cases hx
      | bpSize n eff =>
        rw [hk] at hx hc; simp only [exec, Option.some.injEq] at hx; subst hx
        simp only [check, Bool.and_eq_true, decide_eq_true_eq] at hc
        refine ⟨fun eff' n' h => ?_, fun n' h => ?_⟩
        · cases h; exact hc.1
        · cases h; exact key (noted st id r) ih.1 ih.2 _
      | minerFee t q v => rw [hk] at hx; simp only [exec, Option.some.injEq] at hx; subst hx; exact ih
      | cdpParam p' ps =>
        rw [hk] at hx; simp only [exec, Option.some.injEq] at hx; subst hx
        have := setCdp_frame ctx.height p' ps (noted st id r)
        dsimp only
        rw [this.2.2.2.2.2.2.2.1, this.2.2.2.2.2.2.2.2]
        exact ih
      | other d a t =>
        rw [hk] at hx; simp only [exec, Option.map_eq_some_iff] at hx
        obtain ⟨r, _, hx⟩ := hx; subst hx; exact ih

/-- Executing a proposal for `n` producers from height `eff` on: from `eff` on the count is `n`, before that it is the count
in force when the proposal was executed. Missing: a change that was scheduled before and is not yet in force is dropped
(`scheduled_count_lost_violated`). -/
theorem bp_count_schedule_partial (cfg : Cfg) (ds : List RegId) (s : σ) (hcfg : cfg.bps ≠ 0) (evs : List (Ev σ))
    (ctx : Ctx σ) (n eff : Nat) (hn : n ≠ 0) (st' : State σ)
    (h : exec cfg ctx (run cfg (genesis ds s) evs) (.bpSize n eff) = some st') (x : Nat) :
    totalBps cfg st' x = if eff ≤ x then n else totalBps cfg (run cfg (genesis ds s) evs) ctx.height := by
  obtain ⟨_, _, hpos⟩ := bps_positive cfg ds s hcfg evs
  simp only [exec, Option.some.injEq] at h
  subst h
  have hp := hpos ctx.height
  generalize totalBps cfg (run cfg (genesis ds s) evs) ctx.height = c at hp ⊢
  unfold totalBps
  dsimp only
  rw [if_neg (by rintro ⟨_, h⟩; exact hn h)]
  by_cases hx : eff ≤ x
  · rw [if_pos hx, if_pos hx]
  · rw [if_neg hx, if_neg hx]
    simp [present, hp]

/-- A change to 21 producers at height 5000 is approved; a later approved change to 31 at height 9000 discards it: at height
6000 there are still 11. -/
theorem scheduled_count_lost_violated : ∃ evs evs' : List (Ev Unit),
    totalBps cfg0 (run cfg0 (genesis [1] ()) evs) 6000 = 21 ∧
    totalBps cfg0 (run cfg0 (genesis [1] ()) (evs ++ evs')) 6000 = 11 ∧
    (run cfg0 (genesis [1] ()) (evs ++ evs')).log.map (·.kind) = [.bpSize 21 5000, .bpSize 31 9000] := by
  refine ⟨[.request (ctx0 100) 1 (.bpSize 21 5000), .approve (ctx0 100) 1 1],
    [.request (ctx0 200) 2 (.bpSize 31 9000), .approve (ctx0 200) 2 1], ?_⟩
  decide +kernel

/-! ## C74: a new proposal is open -/

/-- A proposal requested at height `h` with life `n` is open at every height from `h` to `h + n`, if that sum fits 32 bits:
an approval by a member of the council is not refused for lateness. Missing: lives that overflow
(`proposal_life_overflow_violated`). -/
theorem new_proposal_is_open_partial (cfg : Cfg) (ctx ctx' : Ctx σ) (st st' : State σ) (id n : Nat) (k : Kind) (r : RegId)
    (hreq : request cfg ctx st id k = some st') (hl : lifeOf st k = some n) (hfit : ctx.height + n < U32)
    (hlate : ctx'.height ≤ ctx.height + n) (ha : st.approvals id = []) (hm : 2 ≤ minCount cfg st k)
    (hr : r ∈ council cfg st k) : approve cfg ctx' st' id r = some (noted st' id r) := by
  obtain ⟨n', s', hl', _, he⟩ := request_spec hreq
  rw [hl] at hl'
  cases hl'
  have hfit64 : ctx.height + n < U64 := by unfold U32 at hfit; unfold U64; omega
  have ha' : st'.approvals id = [] := by rw [he]; exact ha
  refine approve_spec.mpr ⟨⟨k, wadd ctx.height n % U32, minCount cfg st k⟩, by rw [he]; simp, ?_, ?_, ?_, ?_, Or.inl ⟨?_, rfl⟩⟩
  · rw [he]; exact hr
  · rw [ha']; show 0 < _; dsimp only; omega
  · dsimp only
    rw [wadd_eq hfit64, Nat.mod_eq_of_lt hfit]
    exact Nat.le_trans (Nat.mod_le _ _) hlate
  · rw [ha']; simp
  · rw [ha']; dsimp only [List.length_nil]; omega

/-- The life of proposals may be set to `2^32 - 1` blocks. From then on every ordinary proposal is already expired when it
is requested, so governance can never change anything again - including the life of proposals. -/
theorem proposal_life_overflow_violated : ∃ evs : List (Ev Unit),
    let st := run cfg0 (genesis [1] ()) evs
    inRange sysRange 23 4294967295 = true ∧ getParam st 23 = some 4294967295 ∧
    ∀ (ctx ctx' : Ctx Unit) (id : Nat) (k : Kind) (r : RegId) (st' : State Unit),
      1 ≤ ctx.height → ctx.height ≤ ctx'.height → ctx'.height < U32 → (∀ d t, k ≠ .other d true t) →
      request cfg0 ctx st id k = some st' → approve cfg0 ctx' st' id r = none := by
  refine ⟨[.request (ctx0 10) 1 (.sysParam [(23, 4294967295)]), .approve (ctx0 10) 1 1], by decide, by decide +kernel, ?_⟩
  intro ctx ctx' id k r st' h1 h2 h3 hk hreq
  obtain ⟨n, s', hl, _, he⟩ := request_spec hreq
  have hlife : n = 4294967295 := by
    have hp : getParam (run cfg0 (genesis [1] ())
        [.request (ctx0 10) 1 (.sysParam [(23, 4294967295)]), .approve (ctx0 10) 1 1]) 23 = some 4294967295 := by
      decide +kernel
    cases k with
    | other d a t =>
      cases a with
      | true => exact absurd rfl (hk d t)
      | false => simp only [lifeOf] at hl; rw [hp] at hl; cases hl; rfl
    | sysParam => simp only [lifeOf] at hl; rw [hp] at hl; cases hl; rfl
    | bpmc => simp only [lifeOf] at hl; rw [hp] at hl; cases hl; rfl
    | bpSize => simp only [lifeOf] at hl; rw [hp] at hl; cases hl; rfl
    | minerFee => simp only [lifeOf] at hl; rw [hp] at hl; cases hl; rfl
    | cdpParam => simp only [lifeOf] at hl; rw [hp] at hl; cases hl; rfl
  cases h : approve cfg0 ctx' st' id r with
  | none => rfl
  | some st'' =>
    obtain ⟨p, hp, _, _, hx, _⟩ := approve_spec.mp h
    rw [he] at hp
    simp only [if_true, Option.some.injEq] at hp
    subst hp
    dsimp only at hx
    unfold U32 at *
    rw [Nat.mod_eq_of_lt h3, hlife, wadd_eq (by unfold U64; omega)] at hx
    omega

/-- With the default life a proposal is open. -/
example : lifeOf (genesis [1, 2, 3] ()) (.bpSize 21 5000) = some 1200 ∧
    2 ≤ minCount cfg0 (genesis [1, 2, 3] ()) (.bpSize 21 5000) ∧ 2 ∈ council cfg0 (genesis [1, 2, 3] ()) (.bpSize 21 5000) ∧
    (request cfg0 (ctx0 10) (genesis [1, 2, 3] ()) 7 (.bpSize 21 5000)).isSome = true := by decide

/-! ## C75: the keys of the CDP parameters -/

/-- With a proper order of the keys, setting a value in the map never fails, and reads back; other keys are unaffected. -/
theorem map_with_order_reads_back {K V : Type} {lt : K → K → Bool} (h : StrictTotal lt) (t : Tree K V)
    (ho : t.Ordered lt) (q : K) (v : V) : ∃ t', t.setData lt q v = some t' ∧ t'.Ordered lt ∧
      t'.find lt q = some v ∧ ∀ x, x ≠ q → t'.find lt x = t.find lt x := by
  unfold Tree.setData
  rw [Tree.find_eq_get h ho]
  cases hg : t.get lt q with
  | some w =>
    obtain ⟨e1, e2, e3⟩ := Tree.assign_spec h (v := v) ho (by rw [hg]; rfl)
    refine ⟨_, rfl, e1, by rw [Tree.find_eq_get h e1]; exact e2, fun x hx => ?_⟩
    rw [Tree.find_eq_get h e1, Tree.find_eq_get h ho]
    exact e3 x hx
  | none =>
    obtain ⟨t', e1, e2, _, e4, e5⟩ := Tree.emplace_spec h (v := v) none ho (fun j hj => by cases hj) hg
    refine ⟨t', e1, e2, by rw [Tree.find_eq_get h e2]; exact e4, fun x hx => ?_⟩
    rw [Tree.find_eq_get h e2, Tree.find_eq_get h ho]
    exact e5 x hx

/-- Coin pairs are compared by an order in which two pairs can each be less than the other. A proposal may name any pair.
After a parameter of WICC/WUSD was set, setting one of WUSD/WICC is lost, and setting it again throws an exception. -/
theorem coin_pair_order_violated :
    pairLt ("WICC", "WUSD") ("WUSD", "WICC") = true ∧ pairLt ("WUSD", "WICC") ("WICC", "WUSD") = true ∧
    (∀ st : State Unit, check cfg0 (ctx0 10) st false (.cdpParam ("WUSD", "WICC") [(3, 9000), (3, 9100)]) = true) ∧
    ∃ t1 t2 : Tree (Pair × Nat) Nat,
      Tree.leaf.setData keyLt (("WICC", "WUSD"), 3) 8500 = some t1 ∧
      t1.setData keyLt (("WUSD", "WICC"), 3) 9000 = some t2 ∧
      t2.find keyLt (("WUSD", "WICC"), 3) = none ∧ t2.setData keyLt (("WUSD", "WICC"), 3) 9100 = none := by
  refine ⟨by decide +kernel, by decide +kernel, fun st => rfl,
    .node .leaf (("WICC", "WUSD"), 3) 8500 .leaf,
    .node (.node .leaf (("WUSD", "WICC"), 3) 9000 .leaf) (("WICC", "WUSD"), 3) 8500 .leaf, ?_, ?_, ?_, ?_⟩
  · rfl
  · have h1 : keyLt (("WICC", "WUSD"), 3) (("WUSD", "WICC"), 3) = true := by decide +kernel
    have h2 : keyLt (("WUSD", "WICC"), 3) (("WICC", "WUSD"), 3) = true := by decide +kernel
    simp [Tree.setData, Tree.find, Tree.lower, Tree.emplace, h1, h2]
  · have h1 : keyLt (("WICC", "WUSD"), 3) (("WUSD", "WICC"), 3) = true := by decide +kernel
    simp [Tree.find, Tree.lower, h1]
  · have h1 : keyLt (("WICC", "WUSD"), 3) (("WUSD", "WICC"), 3) = true := by decide +kernel
    have h2 : keyLt (("WUSD", "WICC"), 3) (("WICC", "WUSD"), 3) = true := by decide +kernel
    have h3 : keyLt (("WUSD", "WICC"), 3) (("WUSD", "WICC"), 3) = false := by decide +kernel
    simp [Tree.setData, Tree.find, Tree.lower, Tree.emplace, h1, h2, h3]

/-- Within one pair the keys are properly ordered. -/
theorem one_pair_keys_ordered (p : Pair) : StrictTotal (fun a b : Nat => keyLt (p, a) (p, b)) := by
  have hself : pairLt p p = false := by
    simp [pairLt, String.lt_irrefl]
  refine ⟨fun a => ?_, fun a b c h1 h2 => ?_, fun a b h1 h2 => ?_⟩
  · simp [keyLt, hself]
  · simp [keyLt, hself] at *; omega
  · simp [keyLt, hself] at *; omega

/-! ## C76: redundant parameter changes -/

/-- A change outside the charged range does not affect the charge: with no change in `(b, e]` there is one segment, with
the parameters in force at `b`. Missing: changes inside the range (`redundant_change_violated`). -/
theorem one_segment_without_change_partial (l : List (Nat × Params)) (hs : l.Pairwise (fun a c => a.1 < c.1)) (b e : Nat)
    (h : ∀ a ∈ l, a.1 ≤ b ∨ e < a.1) (perDay : Nat) :
    segments l b e = [⟨b, e, valAt l b⟩] ∧
    ((segments l b e).map (days perDay)).sum = max 1 ((e - b + perDay - 1) / perDay) := by
  have hseg : segments l b e = [⟨b, e, valAt l b⟩] := by
    have hmem : ∀ (l : List (Nat × Params)) (acc : Option Params) (a), a ∈ (scan b l acc).2 → a ∈ l := by
      intro l
      induction l with
      | nil => intro acc a ha; simp [scan] at ha
      | cons c r ih =>
        intro acc a ha
        obtain ⟨k, q⟩ := c
        simp only [scan] at ha
        split at ha
        · exact ha
        · exact List.mem_cons_of_mem _ (ih _ _ ha)
    obtain ⟨h1, h2, h3⟩ := scan_split b l none hs
    have hm := hmem l none
    unfold segments valAt
    generalize scan b l none = pr at *
    obtain ⟨o, r⟩ := pr
    have hcut : ∀ p, cut e b p r = [⟨b, e, p⟩] := by
      intro p
      cases r with
      | nil => rfl
      | cons a r' =>
        obtain ⟨k, q⟩ := a
        have h4 := h1 (k, q) (by simp)
        have h5 := h (k, q) (hm (k, q) (by simp))
        simp only [cut]
        dsimp only at h4 h5
        rw [if_pos (by omega)]
    cases o with
    | none => exact hcut _
    | some p => exact hcut _
  refine ⟨hseg, ?_⟩
  rw [hseg]
  simp [days]

/-- Setting A at height 100 to the value it already has makes a loan from height 50 to 150 pay for two days instead of one
(28800 blocks a day). -/
theorem redundant_change_violated : ∃ evs : List (Ev Unit),
    let st := run cfg0 (genesis [1] ()) evs
    inForce ("WICC", "WUSD") st.log 99 = inForce ("WICC", "WUSD") st.log 100 ∧
    ((segments ((genesis [1] () : State Unit).changes ("WICC", "WUSD")) 50 150).map (days 28800)).sum = 1 ∧
    ((segments (st.changes ("WICC", "WUSD")) 50 150).map (days 28800)).sum = 2 := by
  refine ⟨[.request (ctx0 100) 1 (.cdpParam ("WICC", "WUSD") [(10, 2)]), .approve (ctx0 100) 1 1], ?_⟩
  decide +kernel

/-- The history can hold changes outside the range. -/
example : segments [(10, ⟨3, 1⟩), (90, ⟨4, 1⟩)] 20 80 = [⟨20, 80, ⟨3, 1⟩⟩] := by decide

end Verif.Gov
