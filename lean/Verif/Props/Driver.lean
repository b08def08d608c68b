import Verif.Driver.Model
import Verif.Typed.Nameless
import Verif.Props.Text
import Verif.Props.Auto
import Verif.Props.Emitted

/-! # C67: the programs `chomp` and `autonibble`, and the macro `nibble!` -/

namespace Chomp

/-! ## The stages after conversion -/

theorem backEnd_mono {cas : Casing} {n m : Nat} (hnm : n ≤ m) (r : Conv NE) (h : backEnd cas n r ≠ .oof) :
    backEnd cas m r = backEnd cas n r := by
  unfold backEnd at h ⊢
  cases r with
  | none => rfl
  | some p =>
    obtain ⟨r, c⟩ := p
    cases r with
    | error e => rfl
    | ok e =>
      simp only at h ⊢
      have hr : reduce n e ≠ .oof := by intro hr; rw [hr] at h; exact h rfl
      rw [reduce_mono hnm e hr]
      cases hr' : reduce n e with
      | err e => rfl
      | panic => rfl
      | oof => rfl
      | ok e' =>
        rw [hr'] at h
        simp only at h ⊢
        have hi : (inferTop n e' ⟨[], []⟩).1 ≠ .oof := by intro hi; rw [hi] at h; exact h rfl
        have hi2 : inferTop m e' ⟨[], []⟩ = inferTop n e' ⟨[], []⟩ := infer_fuel hnm _ _ _ hi
        rw [hi2]
        cases hi' : (inferTop n e' ⟨[], []⟩).1 with
        | err e => rfl
        | panic => rfl
        | oof => rfl
        | ok te =>
          rw [hi'] at h
          simp only at h ⊢
          cases hg : gen cas te {} with
          | error e => rfl
          | ok p =>
            obtain ⟨id, st⟩ := p
            rw [hg] at h
            simp only at h ⊢
            cases he : st.emitIds n id with
            | none => rw [he] at h; exact absurd rfl h
            | some r =>
              have : st.emitIds m id = some r := emitLoop_mono hnm he
              rw [this]

/-- The stages end unless reduction does not. -/
theorem backEnd_ends (cas : Casing) (r : Conv NE) (h : ∀ e c, r = some (.ok e, c) → ∃ n, reduce n e ≠ .oof) :
    ∃ N, ∀ fuel, N ≤ fuel → backEnd cas fuel r ≠ .oof := by
  suffices ∃ N, backEnd cas N r ≠ .oof by
    obtain ⟨N, hN⟩ := this
    exact ⟨N, fun fuel hf => by rw [backEnd_mono hf r hN]; exact hN⟩
  cases r with
  | none => exact ⟨0, by simp [backEnd]⟩
  | some p =>
    obtain ⟨r, c⟩ := p
    cases r with
    | error e => exact ⟨0, by simp [backEnd]⟩
    | ok e =>
      obtain ⟨n, hn⟩ := h e c rfl
      cases hr : reduce n e with
      | oof => exact absurd hr hn
      | err x => exact ⟨n, by simp [backEnd, hr]⟩
      | panic => exact ⟨n, by simp [backEnd, hr]⟩
      | ok e' =>
        obtain ⟨N, r, hr2, hi⟩ := C22_inference_terminates e' ⟨[], []⟩ TCtx.Built.default
        have hred : ∀ m, n ≤ m → reduce m e = .ok e' := fun m hm => by
          rw [reduce_mono hm e (by rw [hr]; simp), hr]
        rcases hr2 with ⟨te, rfl⟩ | ⟨err, rfl⟩
        · cases hg : gen cas te {} with
          | error p => exact ⟨max n N, by simp [backEnd, hred (max n N) (by omega), hi (max n N) (by omega), hg]⟩
          | ok p =>
            obtain ⟨id, st⟩ := p
            obtain ⟨out, h6, -⟩ := C38_emits_everything_once hg
            refine ⟨max (max n N) (st.data.length + 1), ?_⟩
            generalize hk : max (max n N) (st.data.length + 1) = k
            have he : st.emitIds k id = some (.ok out) := emitLoop_mono (by omega) h6
            have hk1 : n ≤ k := by omega
            have hk2 : N ≤ k := by omega
            intro hx
            simp only [backEnd, hred k hk1, hi k hk2, hg, he] at hx
            cases hx
        · exact ⟨max n N, by simp [backEnd, hred (max n N) (by omega), hi (max n N) (by omega)]⟩

theorem backEnd_oof {cas : Casing} {fuel : Nat} {e : NE} {c : Ctx} (h : reduce fuel e = .oof) :
    backEnd cas fuel (some (.ok e, c)) = .oof := by simp [backEnd, h]

/-- The stages do not panic if all names have case conversions. -/
theorem backEnd_no_panic (cas : Casing) (fuel : Nat) (e : NE) (c : Ctx) (he : e.AllNames cas.Ok) :
    backEnd cas fuel (some (.ok e, c)) ≠ .panic := by
  intro h
  unfold backEnd at h
  simp only at h
  cases hred : reduce fuel e with
  | err x => rw [hred] at h; cases h
  | oof => rw [hred] at h; cases h
  | panic => exact C16_reduce_no_panic fuel e hred
  | ok e' =>
    rw [hred] at h
    have he' := NE.AllNames.reduce fuel e e' he hred
    simp only at h
    cases hinf : (inferTop fuel e' ⟨[], []⟩).1 with
    | err x => rw [hinf] at h; cases h
    | oof => rw [hinf] at h; cases h
    | panic => exact infer_no_panic fuel e' _ _ hinf
    | ok te =>
      rw [hinf] at h
      simp only at h
      have hte := infer_src fuel e' _ _ te he' he'.info hinf
      cases hg : gen cas te {} with
      | error x =>
        cases x with
        | badName => exact gen_no_bad cas te {} hte hg
        | index => exact C37_no_index_panic cas fuel e' te hinf hg
      | ok r =>
        obtain ⟨id, st⟩ := r
        rw [hg] at h
        simp only at h
        cases hem : st.emitIds fuel id with
        | none => rw [hem] at h; cases h
        | some r =>
          cases r with
          | ok out => rw [hem] at h; cases h
          | error x =>
            cases x with
            | badName => exact emitLoop_no_bad _ _ _ _ _ hem
            | index => exact C37_emission_no_index_panic hg fuel hem

/-! ## The programs -/

/-- The standard output takes everything. -/
def World.Works (w : World) : Prop := ∀ x, w.write x = (x, none)

/-- The stages up to the statement: what is read is a text, the text is a list of tokens, the tokens are a program. -/
def World.Reads (w : World) (stdin : Except (List Char) (List Char)) (s : Stmt) : Prop :=
  ∃ text ts, stdin = .ok text ∧ w.tokens text = .ok ts ∧ parseProgram ts = .ok s

/-- The message of the first stage that fails. -/
inductive World.FirstError (w : World) (fuel : Nat) : Except (List Char) (List Char) → List Char → Prop
  | read (msg : List Char) : FirstError w fuel (.error msg) msg
  | tokens (text msg : List Char) : w.tokens text = .error msg → FirstError w fuel (.ok text) msg
  | syntaxError (text : List Char) (ts : List Tok) : w.tokens text = .ok ts → parseProgram ts = .err () →
      FirstError w fuel (.ok text) (w.synMessage ts)
  | compile (stdin : Except (List Char) (List Char)) (s : Stmt) (msg : List Char) (c : Complaint) : w.Reads stdin s →
      (compile w.cas fuel s).error = some (msg, c) → FirstError w fuel stdin msg

/-- All the ways in which `chomp` can end. -/
theorem chomp_cases (w : World) (fuel : Nat) (stdin : Except (List Char) (List Char)) :
    (∃ msg, w.FirstError fuel stdin msg ∧ w.chomp fuel stdin = some (.fails msg)) ∨
    ∃ s, w.Reads stdin s ∧ w.chomp fuel stdin = w.finish (compile w.cas fuel s) ∧ (compile w.cas fuel s).error = none := by
  cases stdin with
  | error msg => exact .inl ⟨msg, .read msg, rfl⟩
  | ok text =>
    cases ht : w.tokens text with
    | error msg => exact .inl ⟨msg, .tokens text msg ht, by simp only [World.chomp, ht]⟩
    | ok ts =>
      cases hp : parseProgram ts with
      | err x => exact .inl ⟨_, .syntaxError text ts ht hp, by simp only [World.chomp, ht, hp]⟩
      | panic => exact absurd hp (C14_parser_no_panic ts)
      | oof => exact absurd hp (C14_parser_terminates ts)
      | ok s =>
        have hr : w.Reads (.ok text) s := ⟨text, ts, rfl, ht, hp⟩
        have he : w.chomp fuel (.ok text) = w.finish (compile w.cas fuel s) := by
          simp only [World.chomp, ht, hp]; rfl
        rw [he]
        cases hc : compile w.cas fuel s with
        | convert e => exact .inl ⟨e.text, .compile _ s _ e.complaint hr (by rw [hc]; rfl), rfl⟩
        | reduce e => exact .inl ⟨e.text, .compile _ s _ e.complaint hr (by rw [hc]; rfl), rfl⟩
        | typing e => exact .inl ⟨e.text, .compile _ s _ e.complaint hr (by rw [hc]; rfl), rfl⟩
        | panic => exact .inr ⟨s, hr, by rw [hc], by rw [hc]; rfl⟩
        | oof => exact .inr ⟨s, hr, by rw [hc], by rw [hc]; rfl⟩
        | ok te id st out => exact .inr ⟨s, hr, by rw [hc], by rw [hc]; rfl⟩

theorem World.Reads.det {w : World} {stdin : Except (List Char) (List Char)} {s s' : Stmt} (h : w.Reads stdin s) (h' : w.Reads stdin s') :
    s = s' := by
  obtain ⟨text, ts, rfl, h1, h2⟩ := h
  obtain ⟨text', ts', h3, h4, h5⟩ := h'
  cases h3
  rw [h1] at h4; cases h4
  rw [h2] at h5; cases h5
  rfl

theorem World.Reads.chomp {w : World} {stdin : Except (List Char) (List Char)} {s : Stmt} (h : w.Reads stdin s) (fuel : Nat) :
    w.chomp fuel stdin = w.finish (compile w.cas fuel s) := by
  obtain ⟨text, ts, rfl, h1, h2⟩ := h
  unfold World.chomp
  simp only [h1, h2]
  rfl

/-- **C67** (success). `chomp` ends with code 0 exactly if the input is a program and every stage of the compiler succeeds; then
it has written the emitted program, and nothing else, to the standard output, and nothing to the standard error. -/
theorem C67_success (w : World) (hw : w.Works) (fuel : Nat) (stdin : Except (List Char) (List Char)) (o e : List Char) :
    w.chomp fuel stdin = some ⟨o, e, 0⟩ ↔
      ∃ s te id st out, w.Reads stdin s ∧ compile w.cas fuel s = .ok te id st out ∧ o = w.print (st.program none id out) ∧ e = [] := by
  constructor
  · intro h
    rcases chomp_cases w fuel stdin with ⟨msg, -, h1⟩ | ⟨s, h1, h2, h3⟩
    · rw [h1] at h; cases h
    · rw [h2] at h
      cases hc : compile w.cas fuel s with
      | ok te id st out =>
        rw [hc] at h
        simp only [World.finish, hw _] at h
        cases h
        exact ⟨s, te, id, st, out, h1, hc, rfl, rfl⟩
      | panic => rw [hc] at h; cases h
      | oof => rw [hc] at h; cases h
      | _ => rw [hc] at h3; cases h3
  · rintro ⟨s, te, id, st, out, h1, h2, rfl, rfl⟩
    rw [h1.chomp, h2]
    simp only [World.finish, hw _]

/-- **C67** (failure). If `chomp` ends with another code, it has written nothing to the standard output, and the code is 1, and then
the standard error has exactly the line with the message of the first stage that failed; or it panicked, and then the program has
a name whose case conversion is not an identifier. -/
theorem C67_failure (w : World) (hw : w.Works) (fuel : Nat) (stdin : Except (List Char) (List Char)) (r : Ended)
    (h : w.chomp fuel stdin = some r) (hr : r.code ≠ 0) :
    r.stdout = [] ∧
      ((r.code = 1 ∧ ∃ msg, r.stderr = msg ++ ['\n'] ∧ w.FirstError fuel stdin msg) ∨
       (r.code = 101 ∧ ∃ s n, w.Reads stdin s ∧ (n ∈ s.names ∨ n = astName) ∧ ¬ w.cas.Ok n)) := by
  rcases chomp_cases w fuel stdin with ⟨msg, hm, h1⟩ | ⟨s, h1, h2, h3⟩
  · rw [h1] at h; cases h
    exact ⟨rfl, .inl ⟨rfl, msg, rfl, hm⟩⟩
  · rw [h2] at h
    cases hc : compile w.cas fuel s with
    | ok te id st out =>
      rw [hc] at h
      simp only [World.finish, hw _] at h
      cases h
      exact absurd rfl hr
    | panic =>
      rw [hc] at h; cases h
      refine ⟨rfl, .inr ⟨rfl, s, ?_⟩⟩
      refine Classical.byContradiction fun hno => C43_no_panic w.cas fuel s (fun n hn => ?_) ?_ hc
      · exact Classical.byContradiction fun hx => hno ⟨n, h1, .inl hn, hx⟩
      · exact Classical.byContradiction fun hx => hno ⟨astName, h1, .inr rfl, hx⟩
    | oof => rw [hc] at h; cases h
    | _ => rw [hc] at h3; cases h3

/-- **C67** (a message means failure). Conversely the message of the first failing stage is always reported, with code 1. -/
theorem C67_error_reported (w : World) (fuel : Nat) (stdin : Except (List Char) (List Char)) (msg : List Char)
    (h : w.FirstError fuel stdin msg) : w.chomp fuel stdin = some ⟨[], msg ++ ['\n'], 1⟩ := by
  cases h with
  | read => rfl
  | tokens text _ h => simp only [World.chomp, h]; rfl
  | syntaxError text ts h h' => simp only [World.chomp, h, h']; rfl
  | compile _ s _ c hr h =>
    rw [hr.chomp]
    cases hc : compile w.cas fuel s <;> rw [hc] at h <;> cases h <;> rfl

/-- **C67** (writing). If the output cannot be written, the code is 1 and the message is that of the system. -/
theorem C67_write_error (w : World) (fuel : Nat) (stdin : Except (List Char) (List Char)) (s : Stmt) (te : TE) (id : Nat) (st : BState)
    (out : List Nat) (h : w.Reads stdin s) (hc : compile w.cas fuel s = .ok te id st out) (o msg : List Char)
    (hw : w.write (w.print (st.program none id out)) = (o, some msg)) :
    w.chomp fuel stdin = some ⟨o, msg ++ ['\n'], 1⟩ := by
  rw [h.chomp, hc]
  simp only [World.finish, hw]

theorem World.finish_none {w : World} {c : Compile} (h : w.finish c = none) : c = .oof := by
  cases c with
  | oof => rfl
  | ok te id st out =>
    simp only [World.finish] at h
    split at h <;> cases h
  | _ => cases h

/-- **C67** (ends). How `chomp` ends does not depend on the fuel of the model, and it runs for ever exactly if the input is a
program on which reduction does (C21). -/
theorem C67_ends (w : World) (stdin : Except (List Char) (List Char)) :
    (∀ n m r r', w.chomp n stdin = some r → w.chomp m stdin = some r' → r = r') ∧
    ((∀ fuel, w.chomp fuel stdin = none) ↔ ∃ s e c, w.Reads stdin s ∧ convStmt s [] = some (.ok e, c) ∧ ∀ n, reduce n e = .oof) := by
  have key : ∀ n m r, n ≤ m → w.chomp n stdin = some r → w.chomp m stdin = some r := by
    intro n m r hnm h
    rcases chomp_cases w n stdin with ⟨msg, hm, h1⟩ | ⟨s, h1, h2, h3⟩
    · have : w.FirstError m stdin msg := by
        cases hm with
        | read => exact .read _
        | tokens text _ h => exact .tokens _ _ h
        | syntaxError text ts h2 h3 => exact .syntaxError _ _ h2 h3
        | compile _ s _ c hr h =>
          refine .compile _ s _ c hr ?_
          rw [compile_mono hnm s (by intro ho; rw [ho] at h; cases h)]
          exact h
      rw [C67_error_reported w m stdin msg this, ← h, h1]
      rfl
    · rw [h1.chomp] at h ⊢
      rw [compile_mono hnm s (by intro ho; rw [ho] at h; cases h)]
      exact h
  refine ⟨fun n m r r' h h' => ?_, fun h => ?_, fun ⟨s, e, c, h1, h2, h3⟩ fuel => ?_⟩
  · have h1 := key _ _ _ (Nat.le_max_left n m) h
    have h2 := key _ _ _ (Nat.le_max_right n m) h'
    rw [h1] at h2
    cases h2
    rfl
  · rcases chomp_cases w 0 stdin with ⟨msg, -, h1⟩ | ⟨s, h1, -, -⟩
    · rw [h 0] at h1; cases h1
    · refine Classical.byContradiction fun hno => ?_
      obtain ⟨N, hN⟩ := backEnd_ends w.cas (convStmt s []) (fun e c hc => Classical.byContradiction fun hx =>
        hno ⟨s, e, c, h1, hc, fun n => Classical.byContradiction fun hn => hx ⟨n, hn⟩⟩)
      have := h N
      rw [h1.chomp] at this
      exact hN N (Nat.le_refl _) (World.finish_none this)
  · rw [h1.chomp, compile_eq, h2, backEnd_oof (h3 fuel)]
    rfl

/-- **C67** (the macro). On the same tokens the macro expands to the program that `chomp` prints; where `chomp` ends with a message, the
macro is a compile error with the same message; both panic, and both run for ever, on the same programs. -/
theorem C67_macro (w : World) (hw : w.Works) (fuel : Nat) (text : List Char) (ts : List Tok) (ht : w.tokens text = .ok ts) :
    w.chomp fuel (.ok text) = (w.nibble fuel ts).map fun x => match x with
      | .items p => ⟨w.print p, [], 0⟩
      | .compileError msg _ => ⟨[], msg ++ ['\n'], 1⟩
      | .panics => ⟨[], w.panicMessage, 101⟩ := by
  unfold World.chomp World.nibble
  simp only [ht]
  cases parseProgram ts with
  | ok s =>
    dsimp only
    unfold World.expand
    cases backEnd w.cas fuel (convStmt s []) with
    | ok te id st out => simp only [World.finish, hw _]; rfl
    | _ => rfl
  | _ => rfl

/-- **C67** (the macro shows the place). An error of the compiler is shown by the macro at a span of the program. -/
theorem C67_macro_site (w : World) (fuel : Nat) (s : Stmt) (msg : List Char) (site : Site)
    (h : w.expand fuel s = some (.compileError msg site)) :
    ∃ p, site = .span p ∧ (p ∈ s.spans ∨ p ∈ s.dots ∨ p ∈ s.bars) := by
  obtain ⟨h1, h2, h3⟩ := C60_error_in_program w.cas fuel s
  simp only [World.expand, ← compile_eq] at h
  cases hc : compile w.cas fuel s with
  | convert e =>
    rw [hc] at h; cases h
    obtain ⟨p, hp, hm⟩ := h1 e hc
    exact ⟨p, by rw [ConvErr.site, hp], .inl hm⟩
  | reduce e => rw [hc] at h; cases h; exact ⟨_, rfl, .inl (h2 e hc)⟩
  | typing e =>
    rw [hc] at h; cases h
    refine ⟨_, rfl, ?_⟩
    have := h3 e hc
    unfold TErr.PointsAt at this
    split at this
    · exact .inr (.inl this)
    · exact .inr (.inl this)
    · exact .inr (.inr this)
    · exact .inr (.inr this)
    · exact .inl this
  | _ => rw [hc] at h; cases h

/-! ## `autonibble` -/

theorem take_fuel {s : BState} {id n m : Nat} {w : IW} (hnm : n ≤ m) (h : s.take n id w ≠ .oof) : s.take m id w = s.take n id w :=
  run_fuel hnm h

theorem parseStr_fuel {s : BState} {id n m : Nat} {text : List Char} (hnm : n ≤ m) (h : parseStr (s.take n id) text ≠ .oof) :
    parseStr (s.take m id) text = parseStr (s.take n id) text := by
  have ht : s.take n id (IW.new text) ≠ .oof := by
    intro ho
    apply h
    unfold parseStr parseWith
    rw [ho]
  unfold parseStr parseWith
  rw [take_fuel hnm ht]

theorem Parses.eventually {s : BState} {id : Nat} {text : List Char} {r : ParseRes Tree} (h : Parses s id text r) :
    ∃ N, ∀ fuel, N ≤ fuel → parseStr (s.take fuel id) text = r := by
  obtain ⟨h1, n, h2⟩ := h
  exact ⟨n, fun fuel hf => by rw [parseStr_fuel hf (by rw [h2]; exact h1), h2]⟩

theorem Parses.autonibble {st : BState} {text : List Char} {t : Tree} (h : Parses st 0 text (.ok t)) (w : World) :
    ∃ N, ∀ fuel, N ≤ fuel → w.autonibble st fuel (.ok text) = w.finish (backEnd w.cas fuel (autoAst t [])) := by
  obtain ⟨N, hN⟩ := h.eventually
  exact ⟨N, fun fuel hf => by simp only [World.autonibble, hN fuel hf]⟩

/-- How a run ends. -/
def EndsWith (p : Nat → Option Ended) (r : Ended) : Prop := ∃ fuel, p fuel = some r

theorem finish_mono {w : World} {n m : Nat} (hnm : n ≤ m) {r : Conv NE} {x : Ended} (h : w.finish (backEnd w.cas n r) = some x) :
    w.finish (backEnd w.cas m r) = some x := by
  rw [backEnd_mono hnm r (by intro ho; rw [ho] at h; cases h)]
  exact h

/-- More fuel does not change how `autonibble` ends. -/
theorem autonibble_mono {w : World} {st : BState} {n m : Nat} (hnm : n ≤ m) {stdin : Except (List Char) (List Char)} {x : Ended}
    (h : w.autonibble st n stdin = some x) : w.autonibble st m stdin = some x := by
  cases stdin with
  | error msg => exact h
  | ok text =>
    simp only [World.autonibble] at h ⊢
    rw [parseStr_fuel hnm (by intro ho; rw [ho] at h; cases h)]
    cases hp : parseStr (st.take n 0) text with
    | ok t => rw [hp] at h; exact finish_mono hnm h
    | err e => rw [hp] at h; exact h
    | panic => rw [hp] at h; exact h
    | oof => rw [hp] at h; cases h

/-- **C67** (`autonibble`). On every input `autonibble` ends in at most one way.  It ends with the message of its parser exactly on
the texts that are not programs of nibble's grammar; on the others it converts the tree and goes on like `chomp`. -/
theorem C67_autonibble {st : BState} (h : Generates autoToks st) (w : World) (text : List Char) :
    (∀ r r', EndsWith (w.autonibble st · (.ok text)) r → EndsWith (w.autonibble st · (.ok text)) r' → r = r') ∧
    ((∃ err, Parses st 0 text (.err err) ∧ ¬ (∃ p : UProg, p.text = text) ∧
        EndsWith (w.autonibble st · (.ok text)) ⟨[], err.text w.plain ++ ['\n'], 1⟩) ∨
     ∃ t, Parses st 0 text (.ok t) ∧ (∃ p : UProg, p.text = text) ∧
        ∀ r, EndsWith (w.autonibble st · (.ok text)) r ↔ EndsWith (fun fuel => w.finish (backEnd w.cas fuel (autoAst t []))) r) := by
  obtain ⟨h1, h2⟩ := C44_language h text
  refine ⟨?_, ?_⟩
  · rintro r r' ⟨n, hn⟩ ⟨m, hm⟩
    have e1 := autonibble_mono (Nat.le_max_left n m) hn
    have e2 := autonibble_mono (Nat.le_max_right n m) hm
    rw [e1] at e2
    cases e2
    rfl
  · rcases h2 with ⟨t, ht⟩ | ⟨err, he⟩
    · refine .inr ⟨t, ht, h1.1 ⟨t, ht⟩, fun r => ?_⟩
      obtain ⟨N, hN⟩ := ht.autonibble w
      constructor
      · rintro ⟨n, hn⟩
        refine ⟨max n N, ?_⟩
        show w.finish _ = _
        rw [← hN _ (Nat.le_max_right n N)]
        exact autonibble_mono (Nat.le_max_left n N) hn
      · rintro ⟨n, hn⟩
        refine ⟨max n N, ?_⟩
        show w.autonibble st _ _ = _
        rw [hN _ (Nat.le_max_right n N)]
        exact finish_mono (Nat.le_max_left n N) hn
    · obtain ⟨N, hN⟩ := he.eventually
      exact .inl ⟨err, he, fun hp => he.not_ok (h1.2 hp), N, by simp only [World.autonibble, hN N (Nat.le_refl _)]; rfl⟩

/-! ## Both -/

/-- The stages after conversion do the same for expressions that differ in names and spans only: both succeed, or both
report an error. -/
theorem backEnd_alike {cas : Casing} {fuel : Nat} {e e' : NE} {c c' : Ctx} (h : e.erase = e'.erase) (he : e.AllNames cas.Ok)
    (he' : e'.AllNames cas.Ok) (h1 : backEnd cas fuel (some (.ok e, c)) ≠ .oof) (h2 : backEnd cas fuel (some (.ok e', c')) ≠ .oof) :
    (∃ te id st out te' id' st' out', backEnd cas fuel (some (.ok e, c)) = .ok te id st out ∧
        backEnd cas fuel (some (.ok e', c')) = .ok te' id' st' out') ∨
    ∃ m m', (backEnd cas fuel (some (.ok e, c))).error = some m ∧ (backEnd cas fuel (some (.ok e', c'))).error = some m' := by
  have hp1 := backEnd_no_panic cas fuel e c he
  have hp2 := backEnd_no_panic cas fuel e' c' he'
  have hred := C20_reduce_ignores_names fuel e e' h
  unfold backEnd at h1 h2 hp1 hp2 ⊢
  simp only at h1 h2 hp1 hp2 ⊢
  cases hr : reduce fuel e with
  | err x =>
    cases hr' : reduce fuel e' with
    | err y => exact .inr ⟨_, _, rfl, rfl⟩
    | panic => rw [hr'] at hp2; exact absurd rfl hp2
    | oof => rw [hr'] at h2; exact absurd rfl h2
    | ok y => rw [hr, hr'] at hred; cases x <;> exact hred.elim
  | panic => rw [hr] at hp1; exact absurd rfl hp1
  | oof => rw [hr] at h1; exact absurd rfl h1
  | ok x =>
    cases hr' : reduce fuel e' with
    | err y => rw [hr, hr'] at hred; cases y <;> exact hred.elim
    | panic => rw [hr'] at hp2; exact absurd rfl hp2
    | oof => rw [hr'] at h2; exact absurd rfl h2
    | ok y =>
      rw [hr, hr'] at hred
      rw [hr] at h1 hp1
      rw [hr'] at h2 hp2
      simp only at hred h1 h2 hp1 hp2 ⊢
      have hal : Alike _ (inferTop fuel x ⟨[], []⟩).1 (inferTop fuel y ⟨[], []⟩).1 := infer_alike fuel _ _ x y ⟨[], []⟩ hred
      cases hi : (inferTop fuel x ⟨[], []⟩).1 with
      | err a =>
        cases hi' : (inferTop fuel y ⟨[], []⟩).1 with
        | err b => exact .inr ⟨_, _, rfl, rfl⟩
        | panic => rw [hi'] at hp2; exact absurd rfl hp2
        | oof => rw [hi'] at h2; exact absurd rfl h2
        | ok b => rw [hi, hi'] at hal; exact hal.elim
      | panic => rw [hi] at hp1; exact absurd rfl hp1
      | oof => rw [hi] at h1; exact absurd rfl h1
      | ok te =>
        cases hi' : (inferTop fuel y ⟨[], []⟩).1 with
        | err b => rw [hi, hi'] at hal; exact hal.elim
        | panic => rw [hi'] at hp2; exact absurd rfl hp2
        | oof => rw [hi'] at h2; exact absurd rfl h2
        | ok te' =>
          rw [hi] at h1 hp1
          rw [hi'] at h2 hp2
          simp only at h1 h2 hp1 hp2 ⊢
          cases hg : gen cas te {} with
          | error a => rw [hg] at hp1; exact absurd rfl hp1
          | ok a =>
            cases hg' : gen cas te' {} with
            | error b => rw [hg'] at hp2; exact absurd rfl hp2
            | ok b =>
              obtain ⟨id, st⟩ := a
              obtain ⟨id', st'⟩ := b
              rw [hg] at h1 hp1
              rw [hg'] at h2 hp2
              simp only at h1 h2 hp1 hp2 ⊢
              cases hm : st.emitIds fuel id with
              | none => rw [hm] at h1; exact absurd rfl h1
              | some a =>
                cases hm' : st'.emitIds fuel id' with
                | none => rw [hm'] at h2; exact absurd rfl h2
                | some b =>
                  cases a with
                  | error a => rw [hm] at hp1; exact absurd rfl hp1
                  | ok out =>
                    cases b with
                    | error b => rw [hm'] at hp2; exact absurd rfl hp2
                    | ok out' => exact .inl ⟨_, _, _, _, _, _, _, _, rfl, rfl⟩

theorem Info.allNames_unspan {P : Name → Prop} (hP : ∀ n, P n.unspan ↔ P n) (i : Info) : (∀ n ∈ i.unspan.name, P n) ↔ ∀ n ∈ i.name, P n := by
  obtain ⟨n, s⟩ := i
  cases n with
  | none => simp [Info.unspan]
  | some n => simp [Info.unspan, hP]

mutual
theorem NE.allNames_unspan {P : Name → Prop} (hP : ∀ n, P n.unspan ↔ P n) : ∀ e : NE, e.unspan.AllNames P ↔ e.AllNames P
  | .eps i => by simp only [NE.unspan, NE.AllNames, Info.allNames_unspan hP]
  | .lit i s => by simp only [NE.unspan, NE.AllNames, Info.allNames_unspan hP]
  | .cat i f r => by simp only [NE.unspan, NE.AllNames, Info.allNames_unspan hP, NE.allNames_unspan hP f, NE.allNamesP_unspan hP r]
  | .alt i f r => by simp only [NE.unspan, NE.AllNames, Info.allNames_unspan hP, NE.allNames_unspan hP f, NE.allNamesP_unspan hP r]
  | .fix i b => by simp only [NE.unspan, NE.AllNames, Info.allNames_unspan hP, NE.allNames_unspan hP b]
  | .var i k => by simp only [NE.unspan, NE.AllNames, Info.allNames_unspan hP]
  | .call i o a => by simp only [NE.unspan, NE.AllNames, Info.allNames_unspan hP, NE.allNames_unspan hP o, NE.allNamesL_unspan hP a]
  | .lam i a b => by
    simp only [NE.unspan, NE.AllNames, Info.allNames_unspan hP, NE.allNames_unspan hP b, List.mem_map, forall_exists_index, and_imp,
      forall_apply_eq_imp_iff₂, hP]
  | .letE i x b c => by
    simp only [NE.unspan, NE.AllNames, Info.allNames_unspan hP, NE.allNames_unspan hP b, NE.allNames_unspan hP c, hP]
theorem NE.allNamesP_unspan {P : Name → Prop} (hP : ∀ n, P n.unspan ↔ P n) : ∀ l : List (Nat × NE), NE.AllNamesP P (NE.unspanP l) ↔ NE.AllNamesP P l
  | [] => Iff.rfl
  | (_, e) :: l => by simp only [NE.unspanP, NE.AllNamesP, NE.allNames_unspan hP e, NE.allNamesP_unspan hP l]
theorem NE.allNamesL_unspan {P : Name → Prop} (hP : ∀ n, P n.unspan ↔ P n) : ∀ l : List NE, NE.AllNamesL P (NE.unspanL l) ↔ NE.AllNamesL P l
  | [] => Iff.rfl
  | e :: l => by simp only [NE.unspanL, NE.AllNamesL, NE.allNames_unspan hP e, NE.allNamesL_unspan hP l]
end

theorem NE.allNames_setInfo {P : Name → Prop} (e : NE) (n : Option Name) (s : Nat) (hn : ∀ x ∈ e.info.name, x ∈ n)
    (h : (e.setInfo ⟨n, s⟩).AllNames P) : e.AllNames P := by
  cases e <;> simp only [NE.setInfo, NE.AllNames] at h ⊢ <;> simp only [NE.info] at hn <;>
    first
      | exact fun x hx => h x (hn x hx)
      | exact ⟨fun x hx => h.1 x (hn x hx), h.2⟩

theorem merge_keeps {a : Option Name} {c : Content} {x : Name} (hx : x ∈ a) : x ∈ Name.merge a (some (.newVariable c)) := by
  cases a with
  | none => cases hx
  | some y =>
    cases hx
    have : x.kind.ge (Name.newVariable c).kind = true := by
      obtain ⟨_, k⟩ := x
      cases k <;> rfl
    simp [Name.merge, this]

theorem NE.allNames_nameGoal {P : Name → Prop} : ∀ e : NE, e.nameGoal.AllNames P → e.AllNames P
  | .letE i x b c, h => ⟨h.1, h.2.1, h.2.2.1, NE.allNames_nameGoal c h.2.2.2⟩
  | .eps i, h | .lit i s, h | .cat i f r, h | .alt i f r, h | .fix i b, h | .var i k, h | .call i o a, h | .lam i a b, h =>
    NE.allNames_setInfo _ _ _ (fun _ hx => merge_keeps hx) h

theorem Casing.ok_unspan (cas : Casing) (n : Name) : cas.Ok n.unspan ↔ cas.Ok n := Iff.rfl


/-- What both programs need to know about a text: its tokens and its statement, and its tree. -/
structure BothRead (w : World) (st : BState) (text : List Char) (s : Stmt) (t : Tree) : Prop where
  generated : Generates autoToks st
  tree : Parses st 0 text (.ok t)
  lexed : ∃ ts, lex text = .ok ts ∧ w.tokens text = .ok ts ∧ parseProgram ts = .ok s

theorem BothRead.reads {w : World} {st : BState} {text : List Char} {s : Stmt} {t : Tree} (h : BothRead w st text s t) :
    w.Reads (.ok text) s := by
  obtain ⟨ts, -, h1, h2⟩ := h.lexed
  exact ⟨text, ts, rfl, h1, h2⟩

/-- The exit code of the end of `main`. -/
theorem finish_code {w : World} (hw : w.Works) {c : Compile} {r : Ended} (h : w.finish c = some r) :
    (∃ te id st out, c = .ok te id st out ∧ r.code = 0) ∨ (∃ m, c.error = some m ∧ r.code = 1) ∨ (c = .panic ∧ r.code = 101) := by
  cases c with
  | ok te id st out =>
    simp only [World.finish, hw _] at h
    cases h
    exact .inl ⟨_, _, _, _, rfl, rfl⟩
  | convert e => cases h; exact .inr (.inl ⟨_, rfl, rfl⟩)
  | reduce e => cases h; exact .inr (.inl ⟨_, rfl, rfl⟩)
  | typing e => cases h; exact .inr (.inl ⟨_, rfl, rfl⟩)
  | panic => cases h; exact .inr (.inr ⟨rfl, rfl⟩)
  | oof => cases h

theorem finish_ok {w : World} (hw : w.Works) (te : TE) (id : Nat) (st : BState) (out : List Nat) :
    w.finish (.ok te id st out) = some ⟨w.print (st.program none id out), [], 0⟩ := by
  simp only [World.finish, hw _]

theorem finish_error {w : World} {c : Compile} {m : List Char × Complaint} (h : c.error = some m) : w.finish c = some (.fails m.1) := by
  cases c <;> cases h <;> rfl

/-- **C67** (same code). If both programs can read a text and the case conversions of its names are identifiers, `chomp` and
`autonibble` end with the same code on it, or both run for ever. -/
theorem C67_same_code {w : World} (hw : w.Works) {st : BState} {text : List Char} {s : Stmt} {t : Tree} (h : BothRead w st text s t)
    (hs : ∀ n ∈ s.names, w.cas.Ok n) (hast : w.cas.Ok astName) (k : Nat) :
    (∃ r, EndsWith (w.chomp · (.ok text)) r ∧ r.code = k) ↔ ∃ r, EndsWith (w.autonibble st · (.ok text)) r ∧ r.code = k := by
  have hauto : ∀ r, EndsWith (w.autonibble st · (.ok text)) r ↔ EndsWith (fun fuel => w.finish (backEnd w.cas fuel (autoAst t []))) r := by
    rcases (C67_autonibble h.generated w text).2 with ⟨err, he, -⟩ | ⟨t', ht', -, hr⟩
    · exact absurd ⟨t, h.tree⟩ he.not_ok
    · cases h.tree.unique ht'
      exact hr
  have hchomp : ∀ r, EndsWith (w.chomp · (.ok text)) r ↔ EndsWith (fun fuel => w.finish (backEnd w.cas fuel (convStmt s []))) r := by
    intro r
    unfold EndsWith
    simp only [h.reads.chomp]
    rfl
  simp only [hauto, hchomp]
  obtain ⟨ts, h1, -, h2⟩ := h.lexed
  have hso := C44_same_outcome h.generated h.tree h1 h2
  have hme := C44_same_meaning h.generated h.tree h1 h2
  cases hc : convStmt s [] with
  | none => rw [hc] at hso; exact hso.elim
  | some p =>
    obtain ⟨x, c⟩ := p
    cases hc' : autoAst t [] with
    | none => rw [hc, hc'] at hso; cases x <;> exact hso.elim
    | some p' =>
      obtain ⟨x', c'⟩ := p'
      cases x with
      | error e =>
        cases x' with
        | ok e' => rw [hc, hc'] at hso; exact hso.elim
        | error e' =>
          constructor
          · rintro ⟨r, ⟨n, hn⟩, hk⟩
            cases hn
            exact ⟨_, ⟨0, rfl⟩, hk⟩
          · rintro ⟨r, ⟨n, hn⟩, hk⟩
            cases hn
            exact ⟨_, ⟨0, rfl⟩, hk⟩
      | ok e =>
        cases x' with
        | error e' => rw [hc, hc'] at hso; exact hso.elim
        | ok e' =>
          have hun : e.unspan = e'.nameGoal.unspan := by rw [hc, hc'] at hso; exact hso
          have her : e.erase = e'.erase := by
            obtain ⟨e2, c2, h3, h4⟩ := hme.1 e c hc
            rw [hc'] at h3
            cases h3
            exact h4.symm
          have hn : e.AllNames w.cas.Ok := convStmt_names s [] c e hs hast hc
          have hn' : e'.AllNames w.cas.Ok := by
            refine NE.allNames_nameGoal e' ((NE.allNames_unspan w.cas.ok_unspan _).1 ?_)
            rw [← hun]
            exact (NE.allNames_unspan w.cas.ok_unspan _).2 hn
          have hoof : ∀ n, reduce n e = .oof ↔ reduce n e' = .oof := by
            intro n
            have := C20_reduce_ignores_names n e e' her
            constructor
            · intro ho
              rw [ho] at this
              cases hx : reduce n e' with
              | oof => rfl
              | ok y => rw [hx] at this; exact this.elim
              | err y => rw [hx] at this; exact this.elim
              | panic => rw [hx] at this; exact this.elim
            · intro ho
              rw [ho] at this
              cases hx : reduce n e with
              | oof => rfl
              | ok y => rw [hx] at this; exact this.elim
              | err y => rw [hx] at this; cases y <;> exact this.elim
              | panic => rw [hx] at this; exact this.elim
          by_cases hall : ∀ n, reduce n e = .oof
          · constructor
            · rintro ⟨r, ⟨n, hn⟩, hk⟩
              simp only [backEnd_oof (hall n)] at hn
              cases hn
            · rintro ⟨r, ⟨n, hn⟩, hk⟩
              simp only [backEnd_oof ((hoof n).1 (hall n))] at hn
              cases hn
          · obtain ⟨m, hm⟩ := Classical.not_forall.1 hall
            obtain ⟨N, hN⟩ := backEnd_ends w.cas (some (.ok e, c)) (fun e2 c2 h => by cases h; exact ⟨m, hm⟩)
            obtain ⟨N', hN'⟩ := backEnd_ends w.cas (some (.ok e', c')) (fun e2 c2 h => by
              cases h; exact ⟨m, fun h => hm ((hoof m).2 h)⟩)
            have key := fun fuel (hf : max N N' ≤ fuel) =>
              backEnd_alike (cas := w.cas) (fuel := fuel) (c := c) (c' := c') her hn hn' (hN fuel (by omega)) (hN' fuel (by omega))
            constructor
            · rintro ⟨r, ⟨n, hr⟩, hk⟩
              have hr2 := finish_mono (m := max n (max N N')) (Nat.le_max_left _ _) hr
              rcases key (max n (max N N')) (Nat.le_max_right _ _) with ⟨te, id, st, out, te', id', st', out', k1, k2⟩ | ⟨m1, m2, k1, k2⟩
              · rw [k1, finish_ok hw] at hr2
                cases hr2
                exact ⟨⟨w.print (st'.program none id' out'), [], 0⟩, ⟨max n (max N N'), by simp only [k2, finish_ok hw]⟩, hk⟩
              · rw [finish_error k1] at hr2
                cases hr2
                exact ⟨.fails m2.1, ⟨max n (max N N'), by simp only [finish_error k2]⟩, hk⟩
            · rintro ⟨r, ⟨n, hr⟩, hk⟩
              have hr2 := finish_mono (m := max n (max N N')) (Nat.le_max_left _ _) hr
              rcases key (max n (max N N')) (Nat.le_max_right _ _) with ⟨te, id, st, out, te', id', st', out', k1, k2⟩ | ⟨m1, m2, k1, k2⟩
              · rw [k2, finish_ok hw] at hr2
                cases hr2
                exact ⟨⟨w.print (st.program none id out), [], 0⟩, ⟨max n (max N N'), by simp only [k1, finish_ok hw]⟩, hk⟩
              · rw [finish_error k2] at hr2
                cases hr2
                exact ⟨.fails m1.1, ⟨max n (max N N'), by simp only [finish_error k1]⟩, hk⟩

/-- The parts of a successful run of the stages after conversion. -/
theorem backEnd_ok {cas : Casing} {fuel : Nat} {r : Conv NE} {te : TE} {id : Nat} {st : BState} {out : List Nat}
    (h : backEnd cas fuel r = .ok te id st out) : ∃ e c e', r = some (.ok e, c) ∧ reduce fuel e = .ok e' ∧
      Emits cas e' te st id (st.program none id out) := by
  unfold backEnd at h
  split at h
  · cases h
  · cases h
  · rename_i e c
    split at h
    · cases h
    · cases h
    · cases h
    · rename_i e' hr
      split at h
      · cases h
      · cases h
      · cases h
      · rename_i te' hi
        split at h
        · cases h
        · rename_i id' st' hg
          split at h
          · cases h
          · cases h
          · rename_i out' he
            cases h
            exact ⟨e, c, e', rfl, hr, ⟨fuel, hi⟩, hg, fuel, out, he, rfl⟩

/-- **C67** (same parsers). If both programs succeed on a text, they print programs which — if they compile, and sharing does not go
wrong (C36) — accept the same inputs, although their types may be named differently. -/
theorem C67_same_parsers {w : World} {st : BState} {text : List Char} {s : Stmt} {t : Tree} (h : BothRead w st text s t)
    {n m : Nat} {te te' : TE} {id id' : Nat} {b b' : BState} {out out' : List Nat}
    (h1 : backEnd w.cas n (convStmt s []) = .ok te id b out) (h2 : backEnd w.cas m (autoAst t []) = .ok te' id' b' out')
    (hc : (b.program none id out).Compiles) (hc' : (b'.program none id' out').Compiles) (hns : NoSharingConflict te)
    (hns' : NoSharingConflict te') (input : List Char) :
    (∃ v, (b.program none id out).Parses input (.ok v)) ↔ ∃ v, (b'.program none id' out').Parses input (.ok v) := by
  obtain ⟨e, c, e1, k1, k2, k3⟩ := backEnd_ok h1
  obtain ⟨e', c', e1', k1', k2', k3'⟩ := backEnd_ok h2
  obtain ⟨ts, hl, -, hp⟩ := h.lexed
  have her : e'.erase = e.erase := by
    obtain ⟨e2, c2, h3, h4⟩ := (C44_same_meaning h.generated h.tree hl hp).1 e c k1
    rw [k1'] at h3
    cases h3
    exact h4
  have h1 := reduce_mono (Nat.le_max_left n m) e (by rw [k2]; simp)
  have h2 := reduce_mono (Nat.le_max_right n m) e' (by rw [k2']; simp)
  have hred := C20_reduce_ignores_names (max n m) e e' her.symm
  rw [h1, h2, k2, k2'] at hred
  obtain ⟨g, hg, hl⟩ := C64_accepts_language k3 hc hns
  obtain ⟨g', hg', hl'⟩ := C64_accepts_language k3' hc' hns'
  have : g = g' := by
    have : e1.grammar = e1'.grammar := by unfold NE.grammar; rw [show e1.erase = e1'.erase from hred]
    rw [hg, hg'] at this
    cases this
    rfl
  subst this
  rw [hl, hl']

/-! ## Inference and names -/

/-- **C20.** Inference does not look at names and spans: two expressions that differ in nothing else are given the same typed
expression, or are rejected for the same reason — up to names and spans. -/
theorem C20_inference_ignores_names (fuel : Nat) (e e' : NE) (h : e.erase = e'.erase) :
    match (inferTop fuel e ⟨[], []⟩).1, (inferTop fuel e' ⟨[], []⟩).1 with
    | .ok a, .ok b => a.strip = b.strip
    | .err x, .err y => x.bare = y.bare
    | .panic, .panic => True
    | .oof, .oof => True
    | _, _ => False := by
  have := infer_alike fuel e.info.name e'.info.name e e' ⟨[], []⟩ h
  simp only [inferTop]
  generalize (infer fuel e.info.name e ⟨[], []⟩).1 = x at this ⊢
  generalize (infer fuel e'.info.name e' ⟨[], []⟩).1 = y at this ⊢
  cases x <;> cases y <;> exact this

/-! ## Examples -/

/-- A world. -/
def someWorld : World where
  cas := heckCasing
  tokens text := match lex text with
    | .ok ts => .ok ts
    | .error _ => .error "lex error".toList
  synMessage _ := "syntax error".toList
  panicMessage := "panicked".toList
  print _ := "items".toList
  plain := Char.isAlphanum
  write x := (x, none)

theorem someWorld_works : someWorld.Works := fun _ => rfl

/-- A program is compiled and printed. -/
example : someWorld.chomp 20 (.ok "match \"a\";".toList) = some ⟨"items".toList, [], 0⟩ := by decide +kernel

/-- An undeclared name is reported. -/
example : someWorld.chomp 20 (.ok "match x;".toList) = some ⟨[], "undeclared name: `x`\n".toList, 1⟩ := by decide +kernel

/-- So is an error of the types. -/
example : someWorld.chomp 20 (.ok "match \"a\" | \"a\";".toList) =
    some ⟨[], "first sets of both branches overlap\n".toList, 1⟩ := by decide +kernel

/-- So is an error of reading. -/
example : someWorld.chomp 20 (.error "stream did not contain valid UTF-8".toList) =
    some ⟨[], "stream did not contain valid UTF-8\n".toList, 1⟩ := by decide +kernel

/-- The macro shows the place. -/
example : ∃ m, someWorld.expand 20 (.goal 0 (.alt (.mk 7 [(.mk 7 (.mk 7 [(.mk 7 [.ident ⟨false, "x", 7⟩], 7)]) none, 7)]))) = some (.compileError m (.span 7)) :=
  ⟨_, rfl⟩

/-- `match "a";` -/
def aProg : UProg := litProg (.plain ⟨63, by decide⟩)

theorem someWorld_tokens {text : List Char} {ts : List Tok} (h : lex text = .ok ts) : someWorld.tokens text = .ok ts := by
  simp only [someWorld, h]

theorem aProg_text : aProg.text = "match \"a\";".toList := by decide +kernel
theorem aProg_ok : aProg.stmt.ok = true := by decide +kernel
theorem aProg_lex : lex "match \"a\";".toList = .ok aProg.stmt.abs.toks := by
  have hl := lex_prog aProg
  rw [aProg_ok, if_pos rfl, aProg_text] at hl
  exact hl

theorem heck_ok (n : Name) : heckCasing.Ok n := And.intro (fun h => nomatch h) (fun h => nomatch h)

/-- Both programs can read `match "a";`. -/
example : ∃ st s t, BothRead someWorld st "match \"a\";".toList s t ∧ (∀ n ∈ s.names, someWorld.cas.Ok n) ∧ someWorld.cas.Ok astName := by
  obtain ⟨st, h⟩ := auto_generates
  obtain ⟨s, hs⟩ := (parses_uprog aProg.stmt).2 (by decide +kernel)
  exact ⟨st, s, aProg.tree, ⟨h, (auto_parses h _ _).2 ⟨aProg, rfl, aProg_text⟩, _, aProg_lex, someWorld_tokens aProg_lex, hs⟩,
    fun n _ => heck_ok n, heck_ok _⟩

end Chomp
