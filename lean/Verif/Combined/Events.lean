import Verif.Cbuf.ConcProps
import Verif.Cbuf.TsoProps
import Verif.StateMachine.Props
import Verif.Pages.App

/-!
# Events from another thread, through a circular buffer, to a state machine or to pages: property C219

An interrupt handler or a thread puts events into a circular buffer with `circular_buf_putc`; the main program gets them one by one with
`circular_buf_getc` and handles each before it gets the next. (Sending events to the machine directly loses transitions, `C148_lost_wrong`.)
-/
namespace Gel.Combined

variable {α β : Type}

/-- The main program handles the events it gets, in their order. -/
def handleAll (f : β → α → Res β) : Res β → List α → Res β
  | b, [] => b
  | b, e :: es => handleAll f (b >>= fun b => f b e) es

theorem handleAll_append (f : β → α → Res β) : ∀ (es es' : List α) (b : Res β),
    handleAll f b (es ++ es') = handleAll f (handleAll f b es) es'
  | [], _, _ => rfl
  | _ :: es, es', _ => handleAll_append f es es' _

/-- What the main program does at a step of its own: it handles the event that `circular_buf_getc` has returned. -/
def react (f : β → α → Res β) (b : Res β) : Cbuf.Conc.Lbl α → Res β
  | .getcRet (some e) => b >>= fun b => f b e
  | _ => b

/-- The executions of both threads, with what the main program has made of the events, of which it handles one at each return of
`circular_buf_getc`. -/
inductive Sys (f : β → α → Res β) (b₀ : β) (n : Nat) (ring : List α) : List (Cbuf.Conc.Lbl α) → Cbuf.Conc.St α → Res β → Prop
  | init : Sys f b₀ n ring [] ⟨ring, 0, 0, .idle, .idle⟩ (.ok b₀)
  | step {tr s b l s'} : Sys f b₀ n ring tr s b → Cbuf.Conc.Step n s l s' → Sys f b₀ n ring (tr ++ [l]) s' (react f b l)

theorem Sys.exec {f : β → α → Res β} {b₀ : β} {n : Nat} {ring : List α} {tr s b} (h : Sys f b₀ n ring tr s b) :
    Cbuf.Conc.Exec n ring tr s := by
  induction h with
  | init => exact .init
  | step _ hs ih => exact .step ih hs

theorem Sys.handled {f : β → α → Res β} {b₀ : β} {n : Nat} {ring : List α} {tr s b} (h : Sys f b₀ n ring tr s b)
    (hs : ∀ l ∈ tr, ¬ Cbuf.Conc.BulkCall l) : b = handleAll f (.ok b₀) (Cbuf.Conc.got tr) := by
  induction h with
  | init => rfl
  | @step tr s b l s' hx hst ih =>
    have hpre : ∀ l ∈ tr, ¬ Cbuf.Conc.BulkCall l := fun l hl => hs l (by simp [hl])
    rw [ih hpre, Cbuf.Conc.got_append, handleAll_append]
    cases l with
    | getcRet v => cases v <;> rfl
    | getsRet es =>
      exfalso
      have h2 := (Cbuf.Conc.single_pcs hx.exec hpre).2.1
      generalize hl : Cbuf.Conc.Lbl.getsRet es = l at hst
      cases hst <;> simp_all
    | _ => rfl

/-- The same on a machine with store buffers. -/
def reactT (f : β → α → Res β) (b : Res β) : Cbuf.Tso.Lbl α → Res β
  | .getcRet (some e) => b >>= fun b => f b e
  | _ => b

inductive SysT (f : β → α → Res β) (b₀ : β) (n : Nat) (ring : List α) : List (Cbuf.Tso.Lbl α) → Cbuf.Tso.St α → Res β → Prop
  | init : SysT f b₀ n ring [] ⟨ring, 0, 0, [], [], .idle, .idle⟩ (.ok b₀)
  | step {tr s b l s'} : SysT f b₀ n ring tr s b → Cbuf.Tso.Step Cbuf.Tso.tso n s l s' → SysT f b₀ n ring (tr ++ [l]) s' (reactT f b l)

theorem SysT.exec {f : β → α → Res β} {b₀ : β} {n : Nat} {ring : List α} {tr s b} (h : SysT f b₀ n ring tr s b) :
    Cbuf.Tso.Exec Cbuf.Tso.tso n ring tr s := by
  induction h with
  | init => exact .init
  | step _ hs ih => exact .step ih hs

theorem got_appendT : ∀ (a b : List (Cbuf.Tso.Lbl α)), Cbuf.Tso.got (a ++ b) = Cbuf.Tso.got a ++ Cbuf.Tso.got b
  | [], _ => rfl
  | l :: a, b => by
    have ih := got_appendT a b
    cases l with
    | getcRet v => cases v <;> simp [Cbuf.Tso.got, ih]
    | _ => simp [Cbuf.Tso.got, ih]

theorem SysT.handled {f : β → α → Res β} {b₀ : β} {n : Nat} {ring : List α} {tr s b} (h : SysT f b₀ n ring tr s b) :
    b = handleAll f (.ok b₀) (Cbuf.Tso.got tr) := by
  induction h with
  | init => rfl
  | @step tr s b l s' _ hst ih =>
    rw [ih, got_appendT, handleAll_append]
    cases l with
    | getcRet v => cases v <;> rfl
    | _ => rfl

/-! ## A state machine -/

open StateMachine in
/-- One event, of which the main program ignores the answer. -/
def toMachine {μ ε : Type} (managers : List (Manager μ ε)) (b : μ × Nat) (e : ε) : Res (μ × Nat) := do
  let r ← sendEvent managers b.2 b.1 e
  pure (r.1, r.2.1)

open StateMachine in
theorem machine_all {μ ε : Type} (managers : List (Manager μ ε)) (hc : Closed managers) (es : List ε) :
    ∀ (q : Nat) (m : μ), q < managers.length → handleAll (toMachine managers) (.ok (m, q)) es =
      .ok ((ideal (tableNext managers) (tableEff managers) q m es).1, (ideal (tableNext managers) (tableEff managers) q m es).2.1) := by
  induction es with
  | nil => intro q m h; rfl
  | cons e es ih =>
    intro q m h
    obtain ⟨h1, h2⟩ := C67_run managers hc [e] q m h
    have h3 : toMachine managers (m, q) e = .ok (tableEff managers q m e, (tableNext managers q m e).getD q) := by
      simp only [run, ideal] at h1
      obtain ⟨⟨m', q', r⟩, hr, h1⟩ := Res.bind_eq_ok.1 h1
      simp only [Res.ok_bind, Res.pure_eq, Res.ok.injEq, Prod.mk.injEq] at h1
      rw [toMachine, hr, Res.ok_bind, h1.1, h1.2.1, Res.pure_eq]
    rw [handleAll, Res.ok_bind, h3]
    exact ih _ _ h2

open StateMachine in
/-- **C219**, of a state machine: at every moment of every execution the machine is where the automaton of the table is after the events
handled so far, which are the first of those accepted by the buffer, all of them but at most `n - 1`; the call is never undefined. -/
theorem C219_machine {μ ε : Type} (managers : List (Manager μ ε)) (hc : Closed managers) (m₀ : μ) (q₀ : Nat) (hq : q₀ < managers.length)
    {n : Nat} (hn : 0 < n) (ring : List ε) (hr : ring.length = n) {tr s b} (h : Sys (toMachine managers) (m₀, q₀) n ring tr s b)
    (hs : ∀ l ∈ tr, ¬ Cbuf.Conc.BulkCall l) :
    b = .ok ((ideal (tableNext managers) (tableEff managers) q₀ m₀ (Cbuf.Conc.got tr)).1,
      (ideal (tableNext managers) (tableEff managers) q₀ m₀ (Cbuf.Conc.got tr)).2.1) ∧
    Cbuf.Conc.got tr <+: Cbuf.Conc.accepted tr ∧ (Cbuf.Conc.accepted tr).length ≤ (Cbuf.Conc.got tr).length + (n - 1) := by
  refine ⟨?_, Cbuf.Conc.C06_spsc_fifo ring hn hr h.exec hs⟩
  rw [h.handled hs, machine_all managers hc _ _ _ hq]

open StateMachine in
/-- **C219**, of a state machine: when `circular_buf_getc` finds no event, all that were accepted have been handled. -/
theorem C219_idle {μ ε : Type} (managers : List (Manager μ ε)) (hc : Closed managers) (m₀ : μ) (q₀ : Nat) (hq : q₀ < managers.length)
    {n : Nat} (hn : 0 < n) (ring : List ε) (hr : ring.length = n) {tr s s' b} (h : Sys (toMachine managers) (m₀, q₀) n ring tr s b)
    (hs : ∀ l ∈ tr, ¬ Cbuf.Conc.BulkCall l) (hst : Cbuf.Conc.Step n s (.getcRet none) s') :
    b = .ok ((ideal (tableNext managers) (tableEff managers) q₀ m₀ (Cbuf.Conc.accepted tr)).1,
      (ideal (tableNext managers) (tableEff managers) q₀ m₀ (Cbuf.Conc.accepted tr)).2.1) := by
  rw [(C219_machine managers hc m₀ q₀ hq hn ring hr h hs).1, (Cbuf.Conc.C06_refusals ring hn hr h.exec hs hst).2 rfl]

open StateMachine in
/-- **C219**, of a state machine on a computer with store buffers. -/
theorem C219_tso {μ ε : Type} (managers : List (Manager μ ε)) (hc : Closed managers) (m₀ : μ) (q₀ : Nat) (hq : q₀ < managers.length)
    {n : Nat} (hn : 0 < n) (ring : List ε) (hr : ring.length = n) {tr s b} (h : SysT (toMachine managers) (m₀, q₀) n ring tr s b) :
    b = .ok ((ideal (tableNext managers) (tableEff managers) q₀ m₀ (Cbuf.Tso.got tr)).1,
      (ideal (tableNext managers) (tableEff managers) q₀ m₀ (Cbuf.Tso.got tr)).2.1) ∧
    Cbuf.Tso.got tr <+: Cbuf.Tso.accepted tr ∧ (Cbuf.Tso.accepted tr).length ≤ (Cbuf.Tso.got tr).length + (n - 1) := by
  refine ⟨?_, Cbuf.Tso.C112_tso n hn ring hr tr s h.exec⟩
  rw [h.handled, machine_all managers hc _ _ _ hq]

open StateMachine in
/-- **C219**, of a state machine on a computer with store buffers: when `circular_buf_getc` finds no event, all that were accepted have been
handled, if no store is left in the store buffer of the producer. -/
theorem C219_tso_idle {μ ε : Type} (managers : List (Manager μ ε)) (hc : Closed managers) (m₀ : μ) (q₀ : Nat) (hq : q₀ < managers.length)
    {n : Nat} (hn : 0 < n) (ring : List ε) (hr : ring.length = n) {tr s s' b} (h : SysT (toMachine managers) (m₀, q₀) n ring tr s b)
    (hst : Cbuf.Tso.Step Cbuf.Tso.tso n s (.getcRet none) s') (hp : s.pbuf = []) :
    b = .ok ((ideal (tableNext managers) (tableEff managers) q₀ m₀ (Cbuf.Tso.accepted tr)).1,
      (ideal (tableNext managers) (tableEff managers) q₀ m₀ (Cbuf.Tso.accepted tr)).2.1) := by
  obtain ⟨h1, h2, -⟩ := C219_tso managers hc m₀ q₀ hq hn ring hr h
  have h3 := (Cbuf.Tso.C112_refusals n hn ring hr tr s s' h.exec).2 hst
  rw [hp] at h3
  rw [h1, h2.eq_of_length (by simpa using h3)]

/-- The lamp gets three events one after the other. -/
example : handleAll (toMachine StateMachine.lamp) (.ok (0, 0)) [0, 1, 0] = .ok (21, 0) := by decide

/-! ## Pages -/

open Pages in
/-- One event for the page that is shown, and the navigation (C218). -/
def toPages {δ ξ ε α : Type} (c : Conf δ) (ans : Answers δ ξ ε α) (b : Pm δ ξ × α) (e : ε) : Res (Pm δ ξ × α) := handle c ans b.1 b.2 e

open Pages in
theorem pages_all {δ ξ ε α : Type} (c : Conf δ) (ans : Answers δ ξ ε α) (es : List ε) : ∀ (m : Pm δ ξ) (a : α),
    handleAll (toPages c ans) (.ok (m, a)) es = loop c ans m a es := by
  have hstuck : ∀ (es : List ε) (r : Res (Pm δ ξ × α)), (∀ b, r ≠ .ok b) → handleAll (toPages c ans) r es = r := by
    intro es
    induction es with
    | nil => intros; rfl
    | cons e es ih =>
      intro r hr
      have : (r >>= fun b => toPages c ans b e) = r := by
        cases r with
        | ok b => exact absurd rfl (hr b)
        | _ => rfl
      rw [handleAll, this, ih r hr]
  induction es with
  | nil => intros; rfl
  | cons e es ih =>
    intro m a
    rw [handleAll, loop, Res.ok_bind]
    cases h : handle c ans m a e with
    | ok b => simp only [toPages, h, Res.ok_bind]; exact ih _ _
    | _ => simp only [toPages, h]; exact hstuck _ _ (fun _ h => nomatch h)

open Pages Pages.Spec in
/-- **C219**, of pages: at every moment of every execution the pages are where C218 says they are after the events handled so far, which
are the first of those accepted by the buffer; or the application has stopped, for an event that came without a page or a page
for which there was no room. -/
theorem C219_pages {δ ξ ε α : Type} [Inhabited ξ] (c : Conf δ) (hd : c.ndebug = false) (ans : Answers δ ξ ε α)
    (ha : ∀ p e a a' mv t, ans p e a = (a', some mv) → mv.page = some t → t.process = true) (cur : Option (Page δ ξ)) (first : Tmpl)
    (hf : first.process = true) (x : ξ) (a : α) (m₁ : Pm δ ξ) (hm : change c (init cur) first x = .ok m₁)
    {n : Nat} (hn : 0 < n) (ring : List ε) (hr : ring.length = n) {tr s b} (h : Sys (toPages c ans) (m₁, a) n ring tr s b)
    (hs : ∀ l ∈ tr, ¬ Cbuf.Conc.BulkCall l) :
    (match appRun c ans ⟨[fresh c first x 0], 1⟩ a (Cbuf.Conc.got tr) with
      | some (s, a', ps) => ∃ m, b = .ok (m, a') ∧ nav m = s ∧ receivers m.trace = ps
      | none => b = .abort) ∧
    Cbuf.Conc.got tr <+: Cbuf.Conc.accepted tr ∧ (Cbuf.Conc.accepted tr).length ≤ (Cbuf.Conc.got tr).length + (n - 1) := by
  refine ⟨?_, Cbuf.Conc.C06_spsc_fifo ring hn hr h.exec hs⟩
  have hb : b = app c ans cur first x a (Cbuf.Conc.got tr) := by
    rw [h.handled hs, pages_all, app, hm, Res.ok_bind]
  have h218 := C218_app c hd ans ha cur first hf x a (Cbuf.Conc.got tr)
  rw [hb]
  rcases hr : appRun c ans ⟨[fresh c first x 0], 1⟩ a (Cbuf.Conc.got tr) with _ | ⟨s, a', ps⟩
  · rw [hr] at h218
    exact h218
  · rw [hr] at h218
    obtain ⟨m, h1, h2, h3, -⟩ := h218
    exact ⟨m, h1, h2, h3⟩

/-! ## An execution -/

/-- One button press is put, got and handled: the lamp is on, and the buffer is empty. -/
example : ∃ tr s, Sys (toMachine StateMachine.lamp) (0, 0) 2 [7, 7] tr s (.ok (1, 1)) ∧ Cbuf.Conc.got tr = [0] ∧
    Cbuf.Conc.accepted tr = [0] := by
  refine ⟨_, _, .step (.step (.step (.step (.step (.step (.step (.step (.step .init (.callPutc _ 0 rfl)) (.checkOk _ 0 rfl (by decide)))
    (.write _ 0 rfl)) (.advOk _ 0 rfl (by decide))) (.setHead _ 0 rfl)) (.callGetc _ rfl)) (.echeckOk _ rfl (by decide)))
    (.rdslot _ 0 rfl rfl)) (.setTail _ 0 rfl), rfl, rfl⟩

end Gel.Combined
