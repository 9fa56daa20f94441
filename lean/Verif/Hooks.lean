import Verif.Mem
import Verif.Conc

/-!
Model of the code generated by `MTEV_HOOK_IMPL`, `/repo/src/utils/mtev_hooks.h`
lines 139-200: `NAME_hook_exists`, `NAME_hook_invoke` and `NAME_hook_register`,
run by `n` threads over one global list.

Each read or compare-and-swap of the global list head is one step, and each
hook called by an invocation is one step (its result is an input of the step).
Simplifications: the name, prototype and closure fields are not modelled (the
closure travels with the function); allocation does not fail; list nodes are
never released (as in the code), so identities are never reused.
-/
namespace Mtev.Hooks

/-- `mtev_hook_return_t`, mtev_hooks.h:139-143. -/
inductive R
  | continue
  | done
  | abort
deriving DecidableEq, Repr

/-- `struct mtev_hook_NAME_list`, mtev_hooks.h:154-160; `func` may be NULL. -/
structure Node where
  func : Option Nat
  next : Option Nat
deriving DecidableEq, Repr

/-- How the two plain reads of the list head in `register` (mtev_hooks.h:198 and
:199) are carried out.  The C source has a data race here; a compiler may emit
one load or two.
`oneLoad`: the compiler merged them.
`twoLoads`: it did not.
`twoLoadsLocked`: it did not, but the program never lets two registrations
overlap. -/
inductive Mode
  | oneLoad
  | twoLoads
  | twoLoadsLocked
deriving DecidableEq, Repr

/-- Where a thread is. `n0` is the ghost number of installed hooks when the call
started. -/
inductive PC
  | idle
  | reg (nh n0 : Nat)                            -- before mtev_hooks.h:198
  | regExp (nh n0 : Nat)                         -- before the read of :199 (two loads)
  | regCas (nh : Nat) (exp : Option Nat) (n0 : Nat)  -- before the compare-and-swap of :199
  | inv (n0 : Nat)                               -- before mtev_hooks.h:175
  | walk (h : Option Nat) (rv : R) (calls : List (Nat × R)) (n0 : Nat) -- at mtev_hooks.h:176
deriving DecidableEq, Repr

/-- A finished call (ghost): the calls made and the value returned by an
invocation, or the function of a registration; with the number of installed
hooks at its start and end. -/
inductive Ret
  | invoked (calls : List (Nat × R)) (rv : R) (n0 n1 : Nat)
  | registered (f : Option Nat) (n0 n1 : Nat)
deriving DecidableEq, Repr

/-- The global list head (mtev_hooks.h:161), the nodes ever allocated, the
threads; `order` (ghost) lists the node identities in the order of their
successful compare-and-swap. -/
structure St (n : Nat) where
  head : Option Nat
  nodes : List Node
  pc : Fin n → PC
  order : List Nat
  rets : List Ret

/-- `static void *nh_NAME_list = NULL`, mtev_hooks.h:161. -/
def init (n : Nat) : St n :=
  { head := none, nodes := [], pc := fun _ => .idle, order := [], rets := [] }

/-- What a thread does next. `r` is the result of the hook function if the step
calls one. -/
inductive Act
  | register (f : Option Nat)
  | invoke
  | step (r : R)
deriving DecidableEq, Repr

/-- Is the thread inside `register`? -/
def isReg : PC → Bool
  | .reg _ _ => true
  | .regExp _ _ => true
  | .regCas _ _ _ => true
  | _ => false

/-- `nh->next = ...`, mtev_hooks.h:198. -/
def setNext (nodes : List Node) (nh : Nat) (x : Option Nat) : List Node :=
  nodes.modify nh (fun nd => { nd with next := x })

/-- One step of thread `i`. -/
def exec {n : Nat} (mode : Mode) (s : St n) (i : Fin n) (act : Act) : Out (St n) :=
  match act with
  | .register f =>                              -- mtev_hooks.h:188-196
    if s.pc i = .idle ∧ ¬ (mode = .twoLoadsLocked ∧ ∃ j, isReg (s.pc j) = true) then
      .ok { s with nodes := s.nodes ++ [⟨f, none⟩],
                   pc := upd s.pc i (.reg s.nodes.length s.order.length) }
    else .ok s
  | .invoke =>
    if s.pc i = .idle then .ok { s with pc := upd s.pc i (.inv s.order.length) } else .ok s
  | .step r =>
    match s.pc i with
    | .idle => .ok s
    | .reg nh n0 =>
      if mode = .oneLoad then
        .ok { s with nodes := setNext s.nodes nh s.head, pc := upd s.pc i (.regCas nh s.head n0) }
      else .ok { s with nodes := setNext s.nodes nh s.head, pc := upd s.pc i (.regExp nh n0) }
    | .regExp nh n0 => .ok { s with pc := upd s.pc i (.regCas nh s.head n0) }
    | .regCas nh exp n0 =>
      if s.head = exp then
        .ok { s with head := some nh, order := s.order ++ [nh], pc := upd s.pc i .idle,
                     rets := s.rets ++ [.registered ((s.nodes[nh]?).bind Node.func) n0
                       (s.order.length + 1)] }
      else .ok { s with pc := upd s.pc i (.reg nh n0) }
    | .inv n0 => .ok { s with pc := upd s.pc i (.walk s.head .continue [] n0) }
    | .walk none rv calls n0 =>
      .ok { s with pc := upd s.pc i .idle,
                   rets := s.rets ++ [.invoked calls rv n0 s.order.length] }
    | .walk (some h) rv calls n0 =>
      match s.nodes[h]? with
      | none => .ub
      | some ⟨none, nx⟩ => .ok { s with pc := upd s.pc i (.walk nx rv calls n0) }
      | some ⟨some f, nx⟩ =>
        if r = .abort then
          .ok { s with pc := upd s.pc i .idle,
                       rets := s.rets ++ [.invoked (calls ++ [(f, r)]) .abort n0 s.order.length] }
        else if r = .done then
          .ok { s with pc := upd s.pc i (.walk nx .done (calls ++ [(f, r)]) n0) }
        else .ok { s with pc := upd s.pc i (.walk nx rv (calls ++ [(f, r)]) n0) }

/-- An interleaving. -/
def run {n : Nat} (mode : Mode) (s : St n) : List (Fin n × Act) → Out (St n)
  | [] => .ok s
  | (i, a) :: rest => do run mode (← exec mode s i a) rest

/-! ### The invariant -/

/-- Starting at `h`, the list holds exactly the nodes `ids`. -/
inductive Chain (nodes : List Node) : Option Nat → List Nat → Prop
  | nil : Chain nodes none []
  | cons {h : Nat} {nd : Node} {ids : List Nat} : nodes[h]? = some nd →
      Chain nodes nd.next ids → Chain nodes (some h) (h :: ids)

theorem Chain.mono {nodes nodes' : List Node} {h : Option Nat} {ids : List Nat}
    (hc : Chain nodes h ids) (hm : ∀ x ∈ ids, nodes'[x]? = nodes[x]?) : Chain nodes' h ids := by
  induction hc with
  | nil => exact .nil
  | cons h1 _ ih =>
    exact .cons ((hm _ (by simp)).trans h1) (ih fun x hx => hm x (by simp [hx]))

/-- The functions of the first `m` registered hooks, newest first. -/
def funcs (nodes : List Node) (ids : List Nat) : List Nat :=
  ids.filterMap fun x => (nodes[x]?).bind Node.func

/-- The node a registering thread still owns. -/
def owned : PC → Option Nat
  | .reg nh _ => some nh
  | .regExp nh _ => some nh
  | .regCas nh _ _ => some nh
  | _ => none

/-- Per-thread part of the invariant. -/
def PcOk {n : Nat} (mode : Mode) (s : St n) : PC → Prop
  | .idle => True
  | .reg nh n0 => n0 ≤ s.order.length ∧ nh < s.nodes.length
  | .regExp nh n0 => n0 ≤ s.order.length ∧ mode = .twoLoadsLocked ∧
      ∃ nd, s.nodes[nh]? = some nd ∧ nd.next = s.head
  | .regCas nh exp n0 => n0 ≤ s.order.length ∧ ∃ nd, s.nodes[nh]? = some nd ∧ nd.next = exp
  | .inv n0 => n0 ≤ s.order.length
  | .walk h rv calls n0 => ∃ m done rest, n0 ≤ m ∧ m ≤ s.order.length ∧
      (s.order.take m).reverse = done ++ rest ∧ Chain s.nodes h rest ∧
      calls.map Prod.fst = funcs s.nodes done ∧ (∀ c ∈ calls, c.2 ≠ .abort) ∧
      rv = if ∃ c ∈ calls, c.2 = .done then .done else .continue

/-- What a finished call claims. -/
def RetOk {n : Nat} (s : St n) : Ret → Prop
  | .invoked calls rv n0 n1 => ∃ m, n0 ≤ m ∧ m ≤ n1 ∧ n1 ≤ s.order.length ∧
      ((rv = .abort ∧ ∃ pre f rest, calls = pre ++ [(f, .abort)] ∧ (∀ c ∈ pre, c.2 ≠ .abort) ∧
          funcs s.nodes (s.order.take m).reverse = calls.map Prod.fst ++ rest) ∨
       ((∀ c ∈ calls, c.2 ≠ .abort) ∧
          calls.map Prod.fst = funcs s.nodes (s.order.take m).reverse ∧
          rv = if ∃ c ∈ calls, c.2 = .done then .done else .continue))
  | .registered f n0 n1 => ∃ m x, n0 ≤ m ∧ m < n1 ∧ n1 ≤ s.order.length ∧
      s.order[m]? = some x ∧ (s.nodes[x]?).bind Node.func = f

structure Inv {n : Nat} (mode : Mode) (s : St n) : Prop where
  chain : Chain s.nodes s.head s.order.reverse
  bound : ∀ x ∈ s.order, x < s.nodes.length
  nodup : s.order.Nodup
  own : ∀ i x, owned (s.pc i) = some x → x ∉ s.order ∧ x < s.nodes.length
  own2 : ∀ i j x, owned (s.pc i) = some x → owned (s.pc j) = some x → i = j
  solo : mode = .twoLoadsLocked → ∀ i j, isReg (s.pc i) = true → isReg (s.pc j) = true → i = j
  pcs : ∀ i, PcOk mode s (s.pc i)
  rets : ∀ r ∈ s.rets, RetOk s r

theorem inv_init (n : Nat) (mode : Mode) : Inv mode (init n) :=
  ⟨.nil, by simp [init], by simp [init], fun i x h => by simp [init, owned] at h,
    fun i j x h => by simp [init, owned] at h, fun _ i j h => by simp [init, isReg] at h,
    fun i => trivial, by simp [init]⟩

theorem setNext_get {nodes : List Node} {nh x : Nat} {v : Option Nat} (h : x ≠ nh) :
    (setNext nodes nh v)[x]? = nodes[x]? := by
  unfold setNext; rw [List.getElem?_modify]
  cases nodes[x]? <;> simp [Ne.symm h]

theorem setNext_length {nodes : List Node} {nh : Nat} {v : Option Nat} :
    (setNext nodes nh v).length = nodes.length := by simp [setNext]

theorem funcs_congr {a b : List Node} {ids : List Nat}
    (h : ∀ x ∈ ids, (b[x]?).bind Node.func = (a[x]?).bind Node.func) :
    funcs b ids = funcs a ids := by
  unfold funcs
  induction ids with
  | nil => rfl
  | cons x xs ih =>
    have h1 := h x (by simp)
    simp only [List.filterMap_cons, h1]
    rw [ih fun y hy => h y (by simp [hy])]

/-- Moves that do not touch the head. `nodes` may grow or have the `next` field
of an owned node changed. -/
theorem inv_move {n : Nat} {mode : Mode} {s s' : St n} (hs : Inv mode s) (i : Fin n) (v : PC)
    (hpc : s'.pc = upd s.pc i v) (hh : s'.head = s.head) (ho : s'.order = s.order)
    (hlen : s.nodes.length ≤ s'.nodes.length)
    (hget : ∀ x, x < s.nodes.length → owned (s.pc i) ≠ some x → s'.nodes[x]? = s.nodes[x]?)
    (hown : ∀ x, owned v = some x → owned (s.pc i) = some x ∨ x = s.nodes.length ∧ s.nodes.length < s'.nodes.length)
    (hsolo : mode = .twoLoadsLocked → isReg v = true → ∀ j, isReg (s.pc j) = true → j = i)
    (hv : PcOk mode s' v)
    (hret : ∀ r ∈ s'.rets, r ∈ s.rets ∨ RetOk s' r) : Inv mode s' := by
  have hord : ∀ x ∈ s.order, s'.nodes[x]? = s.nodes[x]? := by
    intro x hx
    exact hget x (hs.bound x hx) (fun h => (hs.own i x h).1 hx)
  have hfun : ∀ m, funcs s'.nodes (s.order.take m).reverse = funcs s.nodes (s.order.take m).reverse := by
    intro m
    refine funcs_congr fun x hx => ?_
    rw [hord x (List.mem_of_mem_take (List.mem_reverse.1 hx))]
  refine ⟨?_, ?_, ?_, ?_, ?_, ?_, ?_, ?_⟩
  · rw [hh, ho]
    exact hs.chain.mono fun x hx => hord x (List.mem_reverse.1 hx)
  · intro x hx; rw [ho] at hx; have := hs.bound x hx; omega
  · rw [ho]; exact hs.nodup
  · intro j x h
    rw [hpc] at h
    rw [ho]
    rcases upd_cases s.pc i j v with ⟨_, e⟩ | ⟨_, e⟩ <;> rw [e] at h
    · rcases hown x h with h1 | ⟨h1, h2⟩
      · have := hs.own i x h1; exact ⟨this.1, by omega⟩
      · refine ⟨fun hx => ?_, by omega⟩
        have := hs.bound x hx; omega
    · have := hs.own j x h; exact ⟨this.1, by omega⟩
  · intro j k x h1 h2
    rw [hpc] at h1 h2
    rcases upd_cases s.pc i j v with ⟨ej, e⟩ | ⟨ej, e⟩ <;> rw [e] at h1 <;>
    rcases upd_cases s.pc i k v with ⟨ek, e'⟩ | ⟨ek, e'⟩ <;> rw [e'] at h2
    · rw [ej, ek]
    · rcases hown x h1 with h3 | ⟨h3, _⟩
      · exact absurd (hs.own2 _ _ _ h2 h3) ek
      · have := (hs.own k x h2).2; omega
    · rcases hown x h2 with h3 | ⟨h3, _⟩
      · exact absurd (hs.own2 _ _ _ h1 h3) ej
      · have := (hs.own j x h1).2; omega
    · exact hs.own2 _ _ _ h1 h2
  · intro hm j k h1 h2
    rw [hpc] at h1 h2
    rcases upd_cases s.pc i j v with ⟨ej, e⟩ | ⟨ej, e⟩ <;> rw [e] at h1 <;>
    rcases upd_cases s.pc i k v with ⟨ek, e'⟩ | ⟨ek, e'⟩ <;> rw [e'] at h2
    · rw [ej, ek]
    · exact absurd (hsolo hm h1 k h2) ek
    · exact absurd (hsolo hm h2 j h1) ej
    · exact hs.solo hm _ _ h1 h2
  · intro j
    rw [hpc]
    rcases upd_cases s.pc i j v with ⟨_, e⟩ | ⟨ej, e⟩ <;> rw [e]
    · exact hv
    · have hp := hs.pcs j
      have hne : ∀ x, owned (s.pc j) = some x → s'.nodes[x]? = s.nodes[x]? := fun x hx =>
        hget x (hs.own j x hx).2 (fun h => ej (hs.own2 _ _ _ hx h))
      cases hq : s.pc j with
      | idle => trivial
      | reg nh n0 => rw [hq] at hp; exact ⟨by rw [ho]; exact hp.1, by have := hp.2; omega⟩
      | regExp nh n0 =>
        rw [hq] at hp
        obtain ⟨h1, h2, nd, h3, h4⟩ := hp
        exact ⟨by rw [ho]; exact h1, h2, nd, (hne nh (by rw [hq]; rfl)).trans h3, by rw [hh]; exact h4⟩
      | regCas nh exp n0 =>
        rw [hq] at hp
        obtain ⟨h1, nd, h3, h4⟩ := hp
        exact ⟨by rw [ho]; exact h1, nd, (hne nh (by rw [hq]; rfl)).trans h3, h4⟩
      | inv n0 => rw [hq] at hp; show n0 ≤ _; rw [ho]; exact hp
      | walk h rv calls n0 =>
        rw [hq] at hp
        obtain ⟨m, dn, rest, h1, h2, h3, h4, h5, h6, h7⟩ := hp
        have hsub : ∀ x, x ∈ dn ∨ x ∈ rest → x ∈ s.order := by
          intro x hx
          have : x ∈ (s.order.take m).reverse := by rw [h3]; simpa using hx
          exact List.mem_of_mem_take (List.mem_reverse.1 this)
        refine ⟨m, dn, rest, h1, by rw [ho]; exact h2, by rw [ho]; exact h3, ?_, ?_, h6, h7⟩
        · exact h4.mono fun x hx => hord x (hsub x (.inr hx))
        · rw [h5]; exact (funcs_congr fun x hx => by rw [hord x (hsub x (.inl hx))]).symm
  · intro r hr
    rcases hret r hr with h | h
    · have := hs.rets r h
      cases r with
      | invoked calls rv n0 n1 =>
        obtain ⟨m, h1, h2, h3, h4⟩ := this
        refine ⟨m, h1, h2, by rw [ho]; exact h3, ?_⟩
        rw [ho, hfun m]; exact h4
      | registered f n0 n1 =>
        obtain ⟨m, x, h1, h2, h3, h4, h5⟩ := this
        refine ⟨m, x, h1, h2, by rw [ho]; exact h3, by rw [ho]; exact h4, ?_⟩
        rw [hord x (List.mem_of_getElem? h4)]; exact h5
    · exact h

/-- The successful compare-and-swap. -/
theorem inv_cas {n : Nat} {mode : Mode} {s s' : St n} (hs : Inv mode s) (i : Fin n)
    {nh n0 : Nat} {exp : Option Nat} (hp : s.pc i = .regCas nh exp n0) (hx : s.head = exp)
    (hpc : s'.pc = upd s.pc i .idle) (hh : s'.head = some nh) (ho : s'.order = s.order ++ [nh])
    (hn : s'.nodes = s.nodes)
    (hr : s'.rets = s.rets ++ [.registered ((s.nodes[nh]?).bind Node.func) n0 (s.order.length + 1)]) :
    Inv mode s' := by
  have hpi := hs.pcs i
  rw [hp] at hpi
  obtain ⟨hn0, nd, hnd, hnx⟩ := hpi
  have hown := hs.own i nh (by rw [hp]; rfl)
  have htake : ∀ m, m ≤ s.order.length → s'.order.take m = s.order.take m := by
    intro m hm; rw [ho, List.take_append_of_le_length hm]
  have hlen : s'.order.length = s.order.length + 1 := by rw [ho]; simp
  refine ⟨?_, ?_, ?_, ?_, ?_, ?_, ?_, ?_⟩
  · rw [hh, ho, hn, List.reverse_append]
    refine .cons hnd ?_
    rw [hnx, ← hx]; exact hs.chain
  · intro x h
    rw [ho] at h; rw [hn]
    rcases List.mem_append.1 h with h | h
    · exact hs.bound x h
    · rw [List.mem_singleton.1 h]; exact hown.2
  · rw [ho]
    refine List.nodup_append.2 ⟨hs.nodup, by simp, ?_⟩
    intro a ha b hb
    rw [List.mem_singleton.1 hb]
    intro h; subst h; exact hown.1 ha
  · intro j x h
    rw [hpc] at h
    rcases upd_cases s.pc i j .idle with ⟨_, e⟩ | ⟨ej, e⟩ <;> rw [e] at h
    · simp [owned] at h
    · have := hs.own j x h
      rw [ho, hn]
      refine ⟨fun hm => ?_, this.2⟩
      rcases List.mem_append.1 hm with hm | hm
      · exact this.1 hm
      · rw [List.mem_singleton.1 hm] at h
        exact ej (hs.own2 _ _ _ h (by rw [hp]; rfl))
  · intro j k x h1 h2
    rw [hpc] at h1 h2
    rcases upd_cases s.pc i j .idle with ⟨ej, e⟩ | ⟨ej, e⟩ <;> rw [e] at h1
    · simp [owned] at h1
    rcases upd_cases s.pc i k .idle with ⟨ek, e'⟩ | ⟨ek, e'⟩ <;> rw [e'] at h2
    · simp [owned] at h2
    exact hs.own2 _ _ _ h1 h2
  · intro hm j k h1 h2
    rw [hpc] at h1 h2
    rcases upd_cases s.pc i j .idle with ⟨ej, e⟩ | ⟨ej, e⟩ <;> rw [e] at h1
    · simp [isReg] at h1
    rcases upd_cases s.pc i k .idle with ⟨ek, e'⟩ | ⟨ek, e'⟩ <;> rw [e'] at h2
    · simp [isReg] at h2
    exact hs.solo hm _ _ h1 h2
  · intro j
    rw [hpc]
    rcases upd_cases s.pc i j .idle with ⟨_, e⟩ | ⟨ej, e⟩ <;> rw [e]
    · trivial
    · have hpj := hs.pcs j
      cases hq : s.pc j with
      | idle => trivial
      | reg nh' n0' => rw [hq] at hpj; exact ⟨by have := hpj.1; omega, by rw [hn]; exact hpj.2⟩
      | regExp nh' n0' =>
        rw [hq] at hpj
        obtain ⟨h1, h2, _⟩ := hpj
        exact absurd (hs.solo h2 j i (by rw [hq]; rfl) (by rw [hp]; rfl)) ej
      | regCas nh' exp' n0' =>
        rw [hq] at hpj
        obtain ⟨h1, h2⟩ := hpj
        exact ⟨by omega, by rw [hn]; exact h2⟩
      | inv n0' => rw [hq] at hpj; show n0' ≤ _; rw [hlen]; exact Nat.le_succ_of_le hpj
      | walk h rv calls n0' =>
        rw [hq] at hpj
        obtain ⟨m, dn, rest, h1, h2, h3, h4⟩ := hpj
        refine ⟨m, dn, rest, h1, by omega, by rw [htake m h2]; exact h3, ?_⟩
        rw [hn]; exact h4
  · intro r hr'
    rw [hr] at hr'
    rcases List.mem_append.1 hr' with h | h
    · have := hs.rets r h
      cases r with
      | invoked calls rv n0 n1 =>
        obtain ⟨m, h1, h2, h3, h4⟩ := this
        refine ⟨m, h1, h2, by omega, ?_⟩
        rw [htake m (by omega), hn]; exact h4
      | registered f n0 n1 =>
        obtain ⟨m, x, h1, h2, h3, h4, h5⟩ := this
        refine ⟨m, x, h1, h2, by omega, ?_, by rw [hn]; exact h5⟩
        rw [ho]
        exact (List.getElem?_append_left (List.getElem?_eq_some_iff.1 h4).1).trans h4
    · rw [List.mem_singleton.1 h]
      refine ⟨s.order.length, nh, hn0, by omega, by omega, by rw [ho]; simp, by rw [hn]⟩

theorem mem_ret {n : Nat} {s' : St n} {l : List Ret} {x : Ret}
    (hx : RetOk s' x) : ∀ r ∈ l ++ [x], r ∈ l ∨ RetOk s' r := by
  intro r hr
  rcases List.mem_append.1 hr with h | h
  · exact .inl h
  · rw [List.mem_singleton.1 h]; exact .inr hx

theorem funcs_append (nodes : List Node) (a b : List Nat) :
    funcs nodes (a ++ b) = funcs nodes a ++ funcs nodes b := by simp [funcs]

theorem funcs_one {nodes : List Node} {h : Nat} {nd : Node} (hn : nodes[h]? = some nd) :
    funcs nodes [h] = nd.func.toList := by
  have h1 : (nodes[h]?).bind Node.func = nd.func := by rw [hn]; rfl
  unfold funcs
  rw [List.filterMap_cons, h1]
  cases nd.func <;> rfl

/-- Outside the `twoLoads` mode every step is defined and preserves the
invariant. -/
theorem inv_exec {n : Nat} {mode : Mode} (hmode : mode ≠ .twoLoads) {s : St n} (hs : Inv mode s)
    (i : Fin n) (act : Act) : ∃ s', exec mode s i act = .ok s' ∧ Inv mode s' := by
  have hcur := hs.pcs i
  cases act with
  | register f =>
    simp only [exec]
    by_cases h : s.pc i = .idle ∧ ¬ (mode = .twoLoadsLocked ∧ ∃ j, isReg (s.pc j) = true)
    · rw [if_pos h]
      refine ⟨_, rfl, ?_⟩
      refine inv_move hs i (.reg s.nodes.length s.order.length) rfl rfl rfl (by simp) ?_ ?_ ?_
        ⟨Nat.le_refl _, by simp⟩ (fun r hr => .inl hr)
      · intro x hx _; exact List.getElem?_append_left hx
      · intro x hx; right; simp only [owned, Option.some.injEq] at hx; simp [hx]
      · intro hm _ j hj; exact absurd ⟨hm, j, hj⟩ h.2
    · rw [if_neg h]; exact ⟨s, rfl, hs⟩
  | invoke =>
    simp only [exec]
    by_cases h : s.pc i = .idle
    · rw [if_pos h]
      refine ⟨_, rfl, inv_move hs i (.inv s.order.length) rfl rfl rfl (Nat.le_refl _) (fun x _ _ => rfl)
        (fun x hx => by simp [owned] at hx) (fun _ h => by simp [isReg] at h) (Nat.le_refl _)
        (fun r hr => .inl hr)⟩
    · rw [if_neg h]; exact ⟨s, rfl, hs⟩
  | step r =>
    rcases hpc : s.pc i with _ | ⟨nh, n0⟩ | ⟨nh, n0⟩ | ⟨nh, exp, n0⟩ | n0 | ⟨h, rv, calls, n0⟩ <;>
      rw [hpc] at hcur
    · simp only [exec, hpc]; exact ⟨s, rfl, hs⟩
    · have hlt := hcur.2
      have hset : ∃ nd, (setNext s.nodes nh s.head)[nh]? = some nd ∧ nd.next = s.head := by
        unfold setNext
        rw [List.getElem?_modify, List.getElem?_eq_getElem hlt]
        exact ⟨_, rfl, by simp⟩
      have hsolo : mode = .twoLoadsLocked → ∀ j, isReg (s.pc j) = true → j = i :=
        fun hm j hj => hs.solo hm j i hj (by rw [hpc]; rfl)
      have hg : ∀ x, x < s.nodes.length → owned (s.pc i) ≠ some x →
          (setNext s.nodes nh s.head)[x]? = s.nodes[x]? := by
        intro x _ hx
        refine setNext_get fun h => hx ?_
        rw [hpc, h]; rfl
      simp only [exec, hpc]
      by_cases hm : mode = .oneLoad
      · rw [if_pos hm]
        refine ⟨_, rfl, inv_move hs i (.regCas nh s.head n0) rfl rfl rfl (by simp [setNext]) hg
          (fun x hx => .inl (by rw [hpc]; exact hx)) (fun hm _ => hsolo hm) ⟨hcur.1, hset⟩
          (fun r hr => .inl hr)⟩
      · rw [if_neg hm]
        have hm2 : mode = .twoLoadsLocked := by cases mode <;> simp_all
        refine ⟨_, rfl, inv_move hs i (.regExp nh n0) rfl rfl rfl (by simp [setNext]) hg
          (fun x hx => .inl (by rw [hpc]; exact hx)) (fun hm _ => hsolo hm) ⟨hcur.1, hm2, hset⟩
          (fun r hr => .inl hr)⟩
    · obtain ⟨h1, h2, nd, h3, h4⟩ := hcur
      simp only [exec, hpc]
      refine ⟨_, rfl, inv_move hs i (.regCas nh s.head n0) rfl rfl rfl (Nat.le_refl _) (fun x _ _ => rfl)
          (fun x hx => .inl (by rw [hpc]; exact hx))
          (fun hm _ j hj => hs.solo hm j i hj (by rw [hpc]; rfl)) ⟨h1, nd, h3, h4⟩
          (fun r hr => .inl hr)⟩
    · simp only [exec, hpc]
      by_cases hx : s.head = exp
      · rw [if_pos hx]
        exact ⟨_, rfl, inv_cas hs i hpc hx rfl rfl rfl rfl rfl⟩
      · rw [if_neg hx]
        obtain ⟨h1, nd, h3, _⟩ := hcur
        refine ⟨_, rfl, inv_move hs i (.reg nh n0) rfl rfl rfl (Nat.le_refl _) (fun x _ _ => rfl)
          (fun x hx => .inl (by rw [hpc]; exact hx))
          (fun hm _ j hj => hs.solo hm j i hj (by rw [hpc]; rfl))
          ⟨h1, (List.getElem?_eq_some_iff.1 h3).1⟩ (fun r hr => .inl hr)⟩
    · simp only [exec, hpc]
      refine ⟨_, rfl, inv_move hs i (.walk s.head .continue [] n0) rfl rfl rfl (Nat.le_refl _)
        (fun x _ _ => rfl) (fun x hx => by simp [owned] at hx) (fun _ h => by simp [isReg] at h) ?_
        (fun r hr => .inl hr)⟩
      exact ⟨s.order.length, [], s.order.reverse, hcur, Nat.le_refl _, by simp, hs.chain,
        by simp [funcs], by simp, by simp⟩
    · obtain ⟨m, dn, rest, h1, h2, h3, h4, h5, h6, h7⟩ := hcur
      have hmv : ∀ (v : PC) (s' : St n), s'.pc = upd s.pc i v → s'.head = s.head → s'.order = s.order →
          s'.nodes = s.nodes → owned v = none → isReg v = false → PcOk mode s' v →
          (∀ r ∈ s'.rets, r ∈ s.rets ∨ RetOk s' r) → Inv mode s' := by
        intro v s' e1 e2 e3 e4 e5 e6 e7 e8
        exact inv_move hs i v e1 e2 e3 (by rw [e4]) (fun x _ _ => by rw [e4])
          (fun x hx => by rw [e5] at hx; cases hx) (fun _ h => by rw [e6] at h; cases h) e7 e8
      cases h with
      | none =>
        simp only [exec, hpc]
        cases h4
        refine ⟨_, rfl, hmv .idle _ rfl rfl rfl rfl rfl rfl trivial (mem_ret ?_)⟩
        refine ⟨m, h1, h2, Nat.le_refl _, .inr ⟨h6, ?_, h7⟩⟩
        rw [h5]
        simp only [h3, List.append_nil]
      | some x =>
        cases h4 with
        | @cons _ nd ids hnd hch =>
          obtain ⟨fo, nx⟩ := nd
          simp only [exec, hpc]
          rw [hnd]
          have h3' : (s.order.take m).reverse = (dn ++ [x]) ++ ids := by rw [h3]; simp
          cases fo with
          | none =>
            refine ⟨_, rfl, hmv (.walk nx rv calls n0) _ rfl rfl rfl rfl rfl rfl ?_ (fun r hr => .inl hr)⟩
            refine ⟨m, dn ++ [x], ids, h1, h2, h3', hch, ?_, h6, h7⟩
            rw [funcs_append, funcs_one hnd, h5]; simp
          | some f =>
            have hf : (calls ++ [(f, r)]).map Prod.fst = funcs s.nodes (dn ++ [x]) := by
              rw [funcs_append, funcs_one hnd, ← h5]; simp
            simp only
            by_cases hab : r = .abort
            · rw [if_pos hab]
              refine ⟨_, rfl, hmv .idle _ rfl rfl rfl rfl rfl rfl trivial (mem_ret ?_)⟩
              refine ⟨m, h1, h2, Nat.le_refl _, .inl ⟨rfl, calls, f, funcs s.nodes ids, by rw [hab], h6, ?_⟩⟩
              rw [hf]
              show funcs s.nodes (List.take m s.order).reverse = _
              rw [h3', funcs_append]
            · rw [if_neg hab]
              have h6' : ∀ c ∈ calls ++ [(f, r)], c.2 ≠ .abort := by
                intro c hc
                rcases List.mem_append.1 hc with hc | hc
                · exact h6 c hc
                · rw [List.mem_singleton.1 hc]; exact hab
              by_cases hd : r = .done
              · rw [if_pos hd]
                refine ⟨_, rfl, hmv (.walk nx .done (calls ++ [(f, r)]) n0) _ rfl rfl rfl rfl rfl rfl ?_ (fun r hr => .inl hr)⟩
                refine ⟨m, dn ++ [x], ids, h1, h2, h3', hch, hf, h6', ?_⟩
                rw [if_pos ⟨(f, r), by simp, hd⟩]
              · rw [if_neg hd]
                refine ⟨_, rfl, hmv (.walk nx rv (calls ++ [(f, r)]) n0) _ rfl rfl rfl rfl rfl rfl ?_ (fun r hr => .inl hr)⟩
                refine ⟨m, dn ++ [x], ids, h1, h2, h3', hch, hf, h6', ?_⟩
                rw [h7]
                by_cases hc : ∃ c ∈ calls, c.2 = R.done
                · obtain ⟨c, hc1, hc2⟩ := hc
                  rw [if_pos ⟨c, hc1, hc2⟩, if_pos ⟨c, by simp [hc1], hc2⟩]
                · rw [if_neg hc, if_neg]
                  rintro ⟨c, hc1, hc2⟩
                  rcases List.mem_append.1 hc1 with h | h
                  · exact hc ⟨c, h, hc2⟩
                  · rw [List.mem_singleton.1 h] at hc2; exact hd hc2

theorem inv_run {n : Nat} {mode : Mode} (hmode : mode ≠ .twoLoads) (l : List (Fin n × Act)) (s : St n)
    (hs : Inv mode s) : ∃ s', run mode s l = .ok s' ∧ Inv mode s' := by
  induction l generalizing s with
  | nil => exact ⟨s, rfl, hs⟩
  | cons a rest ih =>
    obtain ⟨i, act⟩ := a
    obtain ⟨s1, h1, h2⟩ := inv_exec hmode hs i act
    obtain ⟨s2, h3, h4⟩ := ih s1 h2
    exact ⟨s2, by simp only [run, h1, Out.ok_bind]; exact h3, h4⟩

end Mtev.Hooks
