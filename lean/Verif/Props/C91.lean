import Verif.Model.Main

/-!
# C91 - What the program does around a command
-/

namespace Backpak.C91

open Main

/-! ## What is asked -/

/-- What was printed. -/
def printed : List Event → Bytes
  | [] => []
  | .printed b :: l => b ++ printed l
  | .said _ _ :: l => printed l

/-- What was printed, and the `INFO` messages, each on a line, in the order in which they came. -/
def printedAndInfo : List Event → Bytes
  | [] => []
  | .printed b :: l => b ++ printedAndInfo l
  | .said .info b :: l => b ++ 10 :: printedAndInfo l
  | .said _ _ :: l => printedAndInfo l

/-- The messages. -/
def messages : List Event → List (Level × Bytes)
  | [] => []
  | .printed _ :: l => messages l
  | .said v b :: l => (v, b) :: messages l

/-- The command gets to run: the configuration can be read, and the directory can be changed to. -/
structure Runs (a : Args) (w : World) (conf : Config) (cwd : Bytes) : Prop where
  conf : loadIn w w.cwd a.config = .ok conf
  cwd : (a.dir = none ∧ cwd = w.cwd) ∨ ∃ d, a.dir = some d ∧ cwd = resolve w.cwd d ∧ w.isDir cwd = true

/-! ## What the program does -/

theorem run_runs {body : Body} {a : Args} {w : World} {conf : Config} {cwd : Bytes} (h : Runs a w conf cwd) :
    run body a w =
      (match (body conf cwd a.repository a.command).result with
      | .error e => ⟨configSays w w.cwd a.config ++ (body conf cwd a.repository a.command).events,
          (body conf cwd a.repository a.command).bumps, .error e⟩
      | .ok () => ⟨configSays w w.cwd a.config ++ (body conf cwd a.repository a.command).events ++
          logCounts (Counters.after (body conf cwd a.repository a.command).bumps),
          (body conf cwd a.repository a.command).bumps, .ok ()⟩) := by
  unfold run
  dsimp only
  rw [h.conf]
  dsimp only
  rcases h.cwd with ⟨h1, rfl⟩ | ⟨d, h1, rfl, h2⟩
  · rw [h1]; dsimp only
    cases (body conf w.cwd a.repository a.command).result <;> rfl
  · rw [h1]; dsimp only; rw [if_pos h2]; dsimp only
    cases (body conf (resolve w.cwd d) a.repository a.command).result <;> rfl

theorem runs_or {body : Body} {a : Args} {w : World} : (∃ conf cwd, Runs a w conf cwd) ∨
    (¬ (∃ conf cwd, Runs a w conf cwd) ∧
      ∃ e, run body a w = ⟨configSays w w.cwd a.config, [], .error e⟩ ∧
        (loadIn w w.cwd a.config = .error e ∨
          (e = .panic "Couldn't change working directory" ∧ ∃ d, a.dir = some d ∧ w.isDir (resolve w.cwd d) = false))) := by
  cases hc : loadIn w w.cwd a.config with
  | error e =>
    refine .inr ⟨?_, e, ?_, .inl rfl⟩
    · rintro ⟨c, d, h⟩; have h := h.conf; rw [hc] at h; cases h
    · unfold run; dsimp only; rw [hc]
  | ok conf =>
    cases hd : a.dir with
    | none => exact .inl ⟨conf, w.cwd, hc, .inl ⟨hd, rfl⟩⟩
    | some d =>
      cases hi : w.isDir (resolve w.cwd d) with
      | true => exact .inl ⟨conf, resolve w.cwd d, hc, .inr ⟨d, hd, rfl, hi⟩⟩
      | false =>
        refine .inr ⟨?_, .panic "Couldn't change working directory", ?_, .inr ⟨rfl, d, rfl, hi⟩⟩
        · rintro ⟨c, d', h⟩
          rcases h.cwd with ⟨h1, -⟩ | ⟨d'', h1, h2, h3⟩
          · rw [hd] at h1; cases h1
          · rw [hd] at h1; cases h1; rw [← h2, h3] at hi; cases hi
        · unfold run; dsimp only; rw [hc]; dsimp only; rw [hd]; dsimp only; rw [if_neg (by simp [hi])]

/-! ## The standard output -/

theorem stdout_quiet_eq : ∀ l : List Event, l.flatMap (Event.toStdout true) = printed l
  | [] => rfl
  | .printed b :: l => by rw [List.flatMap_cons, stdout_quiet_eq l]; rfl
  | .said v b :: l => by rw [List.flatMap_cons, stdout_quiet_eq l]; simp [Event.toStdout, printed]

theorem stdout_info_eq : ∀ l : List Event, l.flatMap (Event.toStdout false) = printedAndInfo l
  | [] => rfl
  | .printed b :: l => by rw [List.flatMap_cons, stdout_info_eq l]; rfl
  | .said v b :: l => by
    rw [List.flatMap_cons, stdout_info_eq l]
    cases v <;> simp [Event.toStdout, printedAndInfo]

theorem configSays_stdout (q : Bool) (w : World) (cwd : Bytes) (arg : Option Bytes) :
    (configSays w cwd arg).flatMap (Event.toStdout q) = [] := by
  unfold configSays
  split
  · rfl
  · split
    · rfl
    · split
      · split <;> rfl
      · rfl

theorem logCounts_stdout (q : Bool) (c : Counters) : (logCounts c).flatMap (Event.toStdout q) = [] := by
  unfold logCounts
  dsimp only
  split
  · rfl
  · rw [List.flatMap_cons, List.flatMap_map]
    simp [Event.toStdout]

theorem main_stdout (body : Body) (a : Args) (w : World) :
    (main body a w).stdout = (run body a w).events.flatMap (Event.toStdout (quiet a.command)) := by
  unfold main
  dsimp only
  rcases (run body a w).result with (t | t) | _ <;> rfl

theorem stdout_runs {body : Body} {a : Args} {w : World} {conf : Config} {cwd : Bytes} (h : Runs a w conf cwd) :
    (main body a w).stdout = (body conf cwd a.repository a.command).events.flatMap (Event.toStdout (quiet a.command)) := by
  rw [main_stdout, run_runs h]
  cases (body conf cwd a.repository a.command).result with
  | error e => rw [List.flatMap_append, configSays_stdout, List.nil_append]
  | ok _ =>
    rw [List.flatMap_append, List.flatMap_append, configSays_stdout, logCounts_stdout, List.nil_append, List.append_nil]

/-- On the standard output of `cat`, `diff`, `dump` and `ls` is what the command prints and nothing else:
it can be given to another program, whatever `-v` says and however the command ends. -/
theorem only_what_is_printed {body : Body} {a : Args} {w : World} {conf : Config} {cwd : Bytes}
    (h : Runs a w conf cwd)
    (hq : a.command = .cat ∨ a.command = .diff ∨ a.command = .dump ∨ a.command = .ls) :
    (main body a w).stdout = printed (body conf cwd a.repository a.command).events := by
  rw [stdout_runs h]
  have : quiet a.command = true := by rcases hq with h | h | h | h <;> rw [h] <;> rfl
  rw [this, stdout_quiet_eq]

/-- On that of all others is what the command prints and its `INFO` messages, in order. -/
theorem printed_and_info {body : Body} {a : Args} {w : World} {conf : Config} {cwd : Bytes}
    (h : Runs a w conf cwd)
    (hq : a.command ≠ .cat ∧ a.command ≠ .diff ∧ a.command ≠ .dump ∧ a.command ≠ .ls) :
    (main body a w).stdout = printedAndInfo (body conf cwd a.repository a.command).events := by
  rw [stdout_runs h]
  have : quiet a.command = false := by
    obtain ⟨h1, h2, h3, h4⟩ := hq
    cases hc : a.command <;> first | rfl | exact absurd hc ‹_›
  rw [this, stdout_info_eq]

/-- If the command does not get to run, nothing is on the standard output. -/
theorem nothing_printed {body : Body} {a : Args} {w : World} (h : ¬ ∃ conf cwd, Runs a w conf cwd) :
    (main body a w).stdout = [] := by
  rcases runs_or (body := body) (a := a) (w := w) with h' | ⟨-, e, he, -⟩
  · exact absurd h' h
  · rw [main_stdout, he]; exact configSays_stdout _ _ _ _

theorem run_verbose (body : Body) (a : Args) (w : World) (v : Nat) : run body { a with verbose := v } w = run body a w :=
  rfl

/-- How much is said on the standard error changes nothing on the standard output and nothing about how
the program ends. -/
theorem verbose_same (body : Body) (a : Args) (w : World) (v : Nat) :
    (main body { a with verbose := v } w).stdout = (main body a w).stdout ∧
      (main body { a with verbose := v } w).code = (main body a w).code := by
  constructor
  · rw [main_stdout, main_stdout]; rfl
  · unfold main; dsimp only; rw [run_verbose]
    rcases (run body a w).result with (t | t) | _ <;> rfl

/-! ## The standard error -/

theorem least_mono {v v' : Nat} (h : v ≤ v') : (least v').gravity ≤ (least v).gravity := by
  rcases v with _ | _ | _ | v <;> rcases v' with _ | _ | _ | v' <;> simp [least, Level.gravity] at * 

theorem toStderr_mono {v v' : Nat} (h : v ≤ v') (e : Event) : (e.toStderr v).Sublist (e.toStderr v') := by
  cases e with
  | printed b => exact List.Sublist.slnil
  | said l b =>
    simp only [Event.toStderr]
    split
    · rw [if_pos (le_trans (least_mono h) ‹_›)]
    · exact List.nil_sublist _

theorem flatMap_sublist {α β : Type} {f g : α → List β} (h : ∀ x, (f x).Sublist (g x)) :
    ∀ l : List α, (l.flatMap f).Sublist (l.flatMap g)
  | [] => List.Sublist.slnil
  | x :: l => by rw [List.flatMap_cons, List.flatMap_cons]; exact (h x).append (flatMap_sublist h l)

/-- With more `-v` all that was said with less is said, and in the same order. -/
theorem more_verbose (body : Body) (a : Args) (w : World) {v v' : Nat} (h : v ≤ v') :
    (main body { a with verbose := v } w).stderr.Sublist (main body { a with verbose := v' } w).stderr := by
  have h1 := flatMap_sublist (toStderr_mono h) (run body a w).events
  unfold main; dsimp only; rw [run_verbose body a w v, run_verbose body a w v']
  rcases (run body a w).result with (t | t) | _
  · exact h1.append (toStderr_mono h _)
  · exact h1.append (List.Sublist.refl _)
  · exact h1

theorem mem_stderr_events {v : Nat} {l : Level} {b : Bytes} (es : List Event) :
    Line.message l b ∈ es.flatMap (Event.toStderr v) ↔ (l, b) ∈ messages es ∧ (least v).gravity ≤ l.gravity := by
  induction es with
  | nil => simp [messages]
  | cons e es ih =>
    rw [List.flatMap_cons, List.mem_append, ih]
    cases e with
    | printed b' => simp [Event.toStderr, messages]
    | said l' b' =>
      simp only [Event.toStderr, messages, List.mem_cons, Prod.mk.injEq]
      split
      · rename_i hg
        simp only [List.mem_singleton, Line.message.injEq]
        constructor
        · rintro (⟨rfl, rfl⟩ | ⟨h1, h2⟩)
          · exact ⟨.inl ⟨rfl, rfl⟩, hg⟩
          · exact ⟨.inr h1, h2⟩
        · rintro ⟨h1 | h1, h2⟩
          · exact .inl h1
          · exact .inr ⟨h1, h2⟩
      · rename_i hg
        simp only [List.not_mem_nil, false_or]
        constructor
        · rintro ⟨h1, h2⟩; exact ⟨.inr h1, h2⟩
        · rintro ⟨⟨rfl, rfl⟩ | h1, h2⟩
          · exact absurd h2 hg
          · exact ⟨h1, h2⟩

theorem mem_stderr_main {body : Body} {a : Args} {w : World} {x : Line}
    (h : x ∈ (run body a w).events.flatMap (Event.toStderr a.verbose)) : x ∈ (main body a w).stderr := by
  unfold main; dsimp only
  rcases (run body a w).result with (t | t) | _
  · exact List.mem_append_left _ h
  · exact List.mem_append_left _ h
  · exact h

theorem messages_append (l m : List Event) : messages (l ++ m) = messages l ++ messages m := by
  induction l with
  | nil => rfl
  | cons e l ih => cases e <;> simp [messages, ih]

/-- A message of the command is on the standard error if it is a warning or an error, if it is an `INFO`
message and `-v` was given, if it is a `DEBUG` message and `-vv` was given, and with `-vvv` whatever it is. -/
theorem said_on_stderr {body : Body} {a : Args} {w : World} {conf : Config} {cwd : Bytes} (h : Runs a w conf cwd)
    {l : Level} {b : Bytes} (hm : (l, b) ∈ messages (body conf cwd a.repository a.command).events)
    (hv : l = .warn ∨ l = .error ∨ (l = .info ∧ 1 ≤ a.verbose) ∨ (l = .debug ∧ 2 ≤ a.verbose) ∨ 3 ≤ a.verbose) :
    Line.message l b ∈ (main body a w).stderr := by
  apply mem_stderr_main
  rw [mem_stderr_events]
  constructor
  · rw [run_runs h]
    cases (body conf cwd a.repository a.command).result with
    | error e => dsimp only; rw [messages_append]; exact List.mem_append_right _ hm
    | ok _ =>
      dsimp only; rw [messages_append, messages_append]
      exact List.mem_append_left _ (List.mem_append_right _ hm)
  · rcases hv with rfl | rfl | ⟨rfl, hv⟩ | ⟨rfl, hv⟩ | hv
    · exact least_mono (Nat.zero_le _)
    · exact le_trans (least_mono (Nat.zero_le _)) (by decide)
    · exact least_mono hv
    · exact least_mono hv
    · exact le_trans (least_mono hv) (Nat.zero_le _)

/-- Without `-v` there is nothing there but warnings and errors. -/
theorem only_grave {body : Body} {a : Args} {w : World} (hv : a.verbose = 0) {l : Level} {b : Bytes}
    (h : Line.message l b ∈ (main body a w).stderr) : l = .warn ∨ l = .error := by
  have key : (least a.verbose).gravity ≤ l.gravity := by
    unfold main at h; dsimp only at h
    rcases hr : (run body a w).result with (t | t) | _ <;> rw [hr] at h <;> dsimp only at h
    · rcases List.mem_append.mp h with h | h
      · exact ((mem_stderr_events _).mp h).2
      · have : Line.message l b ∈ [Event.said .error (ascii t)].flatMap (Event.toStderr a.verbose) := by
          rw [List.flatMap_cons]; exact List.mem_append_left _ h
        exact ((mem_stderr_events _).mp this).2
    · rcases List.mem_append.mp h with h | h
      · exact ((mem_stderr_events _).mp h).2
      · simp at h
    · exact ((mem_stderr_events _).mp h).2
  rw [hv] at key
  cases l <;> first | exact .inl rfl | exact .inr rfl | exact absurd key (by decide)

/-- With `-v`, an `INFO` message of `backup` (of any command but the four quiet ones) is on the standard
error and on the standard output: on a terminal it is seen twice. -/
theorem info_twice {body : Body} {a : Args} {w : World} {conf : Config} {cwd : Bytes} (h : Runs a w conf cwd)
    (hq : a.command = .backup) (hv : 1 ≤ a.verbose) {b : Bytes}
    (he : (body conf cwd a.repository a.command).events = [.said .info b]) :
    (main body a w).stdout = b ++ [10] ∧ Line.message .info b ∈ (main body a w).stderr := by
  constructor
  · rw [printed_and_info h (by rw [hq]; decide), he]; simp [printedAndInfo]
  · exact said_on_stderr h (by rw [he]; simp [messages]) (.inr (.inr (.inl ⟨rfl, hv⟩)))

/-! ## How it ends -/

/-- The program ends with 0 exactly if the command got to run and did not fail. -/
theorem succeeds_iff (body : Body) (a : Args) (w : World) : (main body a w).code = 0 ↔
    ∃ conf cwd, Runs a w conf cwd ∧ (body conf cwd a.repository a.command).result = .ok () := by
  constructor
  · intro h
    rcases runs_or (body := body) (a := a) (w := w) with ⟨conf, cwd, hr⟩ | ⟨-, e, he, -⟩
    · refine ⟨conf, cwd, hr, ?_⟩
      unfold main at h; dsimp only at h; rw [run_runs hr] at h
      rcases hb : (body conf cwd a.repository a.command).result with (t | t) | ⟨⟩
      · rw [hb] at h; cases h
      · rw [hb] at h; cases h
      · rfl
    · unfold main at h; dsimp only at h; rw [he] at h
      rcases e with t | t <;> cases h
  · rintro ⟨conf, cwd, hr, hb⟩
    unfold main; dsimp only; rw [run_runs hr, hb]

/-- A command that fails with an error ends with 1, and the error is the last thing on the standard error,
whatever `-v` says. -/
theorem fails {body : Body} {a : Args} {w : World} {conf : Config} {cwd : Bytes} (h : Runs a w conf cwd) {t : String}
    (he : (body conf cwd a.repository a.command).result = .error (.err t)) :
    (main body a w).code = 1 ∧ (main body a w).stderr.getLast? = some (.message .error (ascii t)) := by
  have : Event.toStderr a.verbose (.said .error (ascii t)) = [.message .error (ascii t)] := by
    simp only [Event.toStderr]
    rw [if_pos (le_trans (least_mono (Nat.zero_le a.verbose)) (show (least 0).gravity ≤ Level.gravity .error by decide))]
  unfold main; dsimp only; rw [run_runs h, he]; dsimp only
  exact ⟨rfl, by rw [this, List.getLast?_append]; rfl⟩

/-- A directory that cannot be changed to: the program panics, and the command does not run. -/
theorem no_such_dir {body : Body} {a : Args} {w : World} {conf : Config} {d : Bytes}
    (hc : loadIn w w.cwd a.config = .ok conf) (hd : a.dir = some d) (hi : w.isDir (resolve w.cwd d) = false) :
    (main body a w).code = 101 ∧ (main body a w).stdout = [] ∧
      (main body a w).stderr.getLast? = some (.panicked "Couldn't change working directory") ∧
      ∀ body' : Body, main body' a w = main body a w := by
  have h : ∀ b : Body, run b a w = ⟨configSays w w.cwd a.config, [], .error (.panic "Couldn't change working directory")⟩ := by
    intro b; unfold run; dsimp only; rw [hc]; dsimp only; rw [hd]; dsimp only; rw [if_neg (by simp [hi])]
  refine ⟨?_, ?_, ?_, ?_⟩
  · unfold main; dsimp only; rw [h]
  · rw [main_stdout, h]; exact configSays_stdout _ _ _ _
  · unfold main; dsimp only; rw [h]; dsimp only; rw [List.getLast?_append]; rfl
  · intro body'; unfold main; dsimp only; rw [h, h]

/-! ## The directory -/

/-- The world, as it is for one who went to another directory first. -/
def gone (w : World) (d : Bytes) : World := { w with cwd := resolve w.cwd d }

/-- An absolute path. -/
def Absolute (p : Bytes) : Prop := ∃ r, p = 0x2f :: r

/-- With `-C` the command itself runs in the directory given - relative paths that it is given, that of the
repository too, are taken from there - but with the configuration of the directory that the program was
started in. -/
theorem in_directory (body : Body) (a : Args) (w : World) (d : Bytes) (hi : w.isDir (resolve w.cwd d) = true) :
    main body { a with dir := some d } w =
      main (fun conf _ r c => body conf (resolve w.cwd d) r c) { a with dir := none } w := by
  unfold main
  dsimp only
  have : run body { a with dir := some d } w =
      run (fun conf _ r c => body conf (resolve w.cwd d) r c) { a with dir := none } w := by
    unfold run; dsimp only
    cases loadIn w w.cwd a.config with
    | error e => rfl
    | ok conf => dsimp only; rw [if_pos hi]
  rw [this]

theorem resolve_absolute {p : Bytes} (h : Absolute p) (c c' : Bytes) : resolve c p = resolve c' p := by
  obtain ⟨r, rfl⟩ := h; rfl

/-- `-C d` is to be the same as going to `d` first: "Change to the given directory before doing anything
else". It is if the path given with `--config`, if one is given, is absolute, and the two directories
have the same `.backpak` or neither has one; or if `--config ""` is given. -/
theorem as_if_gone_partial (body : Body) (a : Args) (w : World) (d : Bytes) (hi : w.isDir (resolve w.cwd d) = true)
    (hh : ∀ p, w.home = some p → Absolute p)
    (hc : a.config = some [] ∨ ((∀ p, a.config = some p → Absolute p) ∧
      w.files (resolve w.cwd localName) = w.files (resolve (resolve w.cwd d) localName))) :
    main body { a with dir := some d } w = main body { a with dir := none } (gone w d) := by
  have h1 : loadIn w w.cwd a.config = loadIn (gone w d) (gone w d).cwd a.config := by
    rcases hc with hc | ⟨h1, h2⟩
    · rw [hc]; rfl
    · unfold loadIn gone Config.load
      dsimp only
      split
      · rfl
      · cases ha : a.config with
        | some p => dsimp only; rw [resolve_absolute (h1 p ha) w.cwd (resolve w.cwd d), h2]
        | none =>
          cases hhome : w.home with
          | none => rfl
          | some p => dsimp only; rw [resolve_absolute (hh p hhome) w.cwd (resolve w.cwd d), h2]
  have h2 : configSays w w.cwd a.config = configSays (gone w d) (gone w d).cwd a.config := by
    rcases hc with hc | ⟨h1, h2⟩
    · rw [hc]; rfl
    · unfold configSays gone
      dsimp only
      split
      · rfl
      · cases ha : a.config with
        | some p => dsimp only; rw [resolve_absolute (h1 p ha) w.cwd (resolve w.cwd d), h2]
        | none =>
          cases hhome : w.home with
          | none => rfl
          | some p => dsimp only; rw [resolve_absolute (hh p hhome) w.cwd (resolve w.cwd d), h2]
  unfold main
  dsimp only
  have : run body { a with dir := some d } w = run body { a with dir := none } (gone w d) := by
    unfold run; dsimp only
    rw [← h1, ← h2]
    cases loadIn w w.cwd a.config with
    | error e => rfl
    | ok conf => dsimp only; rw [if_pos hi]; rfl
  rw [this]

/-- A command that prints what it is to skip. -/
def skipping : Body := fun conf _ _ _ => ⟨[.printed conf.skips.flatten], [], .ok ()⟩

/-- A home with a configuration, and a directory `/p` whose `.backpak` says to skip `s`; the program is
started in `/q`. -/
def twoDirs : World where
  cwd := [0x2f, 113]
  isDir := fun _ => true
  files := fun p =>
    if p = [0x2f, 104] then .holds ⟨2 ^ 30, [], false, none⟩
    else if p = [0x2f, 112] ++ 0x2f :: localName then .holds ⟨2 ^ 30, [[115]], false, none⟩
    else .missing
  home := some [0x2f, 104]

/-- It is not so in general: `backpak -C /p backup` does not skip what `.backpak` in `/p` says to skip, as
`cd /p; backpak backup` does. -/
theorem not_as_if_gone : ∃ (body : Body) (a : Args) (w : World) (d : Bytes), w.isDir (resolve w.cwd d) = true ∧
    a.command = .backup ∧ a.config = none ∧
    main body { a with dir := some d } w = ⟨[], [], 0⟩ ∧
    main body { a with dir := none } (gone w d) = ⟨[115], [], 0⟩ :=
  ⟨skipping, ⟨0, none, none, [114], .backup⟩, twoDirs, [0x2f, 112], rfl, rfl, rfl, by decide +kernel, by decide +kernel⟩

/-- Nor with a relative path given with `--config`: it is taken from the directory that the program was
started in. -/
theorem config_not_from_there : ∃ (body : Body) (a : Args) (w : World) (d p : Bytes),
    w.isDir (resolve w.cwd d) = true ∧ a.config = some p ∧ p ≠ [] ∧
    w.files (resolve w.cwd localName) = .missing ∧ w.files (resolve (resolve w.cwd d) localName) = .missing ∧
    main body { a with dir := some d } w = ⟨[], [], 0⟩ ∧
    main body { a with dir := none } (gone w d) = ⟨[115], [], 0⟩ :=
  ⟨skipping, ⟨0, some [99], none, [114], .backup⟩,
    { twoDirs with files := fun p => if p = [0x2f, 112, 0x2f, 99] then .holds ⟨2 ^ 30, [[115]], false, none⟩ else .missing },
    [0x2f, 112], [99], rfl, rfl, by decide, rfl, by decide +kernel, by decide +kernel, by decide +kernel⟩

/-! ## The counters -/

/-- A counter is the number of times that it was bumped, up to 64 bits. -/
theorem counted (bumps : List (Op × Nat)) (o : Op) :
    Counters.after bumps o = ((bumps.filter (fun b => b.1 = o)).map (·.2)).sum % 2 ^ 64 := by
  have key : ∀ (l : List (Op × Nat)) (c : Counters), c o < 2 ^ 64 →
      l.foldl Counters.add c o = (c o + ((l.filter (fun b => b.1 = o)).map (·.2)).sum) % 2 ^ 64 := by
    intro l
    induction l with
    | nil => intro c hc; simp [Nat.mod_eq_of_lt hc]
    | cons b l ih =>
      intro c hc
      rw [List.foldl_cons, ih]
      · by_cases hb : b.1 = o
        · rw [List.filter_cons_of_pos (by simp [hb]), List.map_cons, List.sum_cons]
          unfold Counters.add
          rw [if_pos hb.symm, Nat.mod_add_mod, Nat.add_assoc]
        · rw [List.filter_cons_of_neg (by simp [hb])]
          unfold Counters.add
          rw [if_neg (fun h => hb h.symm)]
      · unfold Counters.add
        split
        · exact Nat.mod_lt _ (by decide)
        · exact hc
  unfold Counters.after
  rw [key bumps (fun _ => 0) (by decide), Nat.zero_add]

/-- In whatever order the threads came to count. -/
theorem any_order {l m : List (Op × Nat)} (h : l.Perm m) : Counters.after l = Counters.after m := by
  funext o
  rw [counted, counted, ((h.filter _).map _).sum_nat]

theorem mem_all (o : Op) : o ∈ Op.all := by cases o <;> decide

theorem messages_debug (l : List Op) (f : Op → Bytes) :
    messages (l.map (fun o => .said .debug (f o))) = l.map (fun o => (Level.debug, f o)) := by
  induction l with
  | nil => rfl
  | cons a l ih => simp [messages, ih]

/-- With `-vv` or more, what the command counted is on the standard error after it succeeded: a line for
each counter that is not zero. -/
theorem counts_shown {body : Body} {a : Args} {w : World} {conf : Config} {cwd : Bytes} (h : Runs a w conf cwd)
    (hok : (body conf cwd a.repository a.command).result = .ok ()) (hv : 2 ≤ a.verbose) {o : Op}
    (hpos : 0 < Counters.after (body conf cwd a.repository a.command).bumps o) :
    Line.message .debug (countLine (Counters.after (body conf cwd a.repository a.command).bumps o) o) ∈
      (main body a w).stderr := by
  apply mem_stderr_main
  rw [mem_stderr_events]
  refine ⟨?_, least_mono hv⟩
  rw [run_runs h, hok]
  dsimp only
  rw [messages_append]
  apply List.mem_append_right
  unfold logCounts
  dsimp only
  have hmem : o ∈ Op.all.filter (fun o => 0 < Counters.after (body conf cwd a.repository a.command).bumps o) :=
    List.mem_filter.mpr ⟨mem_all o, by simpa using hpos⟩
  rw [if_neg (fun hn => by rw [hn] at hmem; exact absurd hmem (List.not_mem_nil))]
  simp only [messages]
  apply List.mem_cons_of_mem
  rw [messages_debug]
  exact List.mem_map.mpr ⟨o, hmem, rfl⟩

/-- Nothing is said of a counter that is zero, and nothing at all if all are. -/
theorem counts_only {c : Counters} {e : Event} (h : e ∈ logCounts c) :
    (∃ o, 0 < c o) ∧ (e = .said .debug (ascii "Counters:") ∨ ∃ o, 0 < c o ∧ e = .said .debug (countLine (c o) o)) := by
  unfold logCounts at h
  dsimp only at h
  split at h
  · exact absurd h (List.not_mem_nil)
  · rename_i hne
    obtain ⟨o, ho⟩ := List.exists_mem_of_ne_nil _ hne
    refine ⟨⟨o, by simpa using (List.mem_filter.mp ho).2⟩, ?_⟩
    rcases List.mem_cons.mp h with rfl | h
    · exact .inl rfl
    · obtain ⟨o', ho', rfl⟩ := List.mem_map.mp h
      exact .inr ⟨o', by simpa using (List.mem_filter.mp ho').2, rfl⟩

/-! ## An example -/

/-- A command that says something, prints something, warns and counts. -/
def busy : Body := fun _ _ _ _ =>
  ⟨[.said .info (ascii "Opening"), .printed [1, 2, 3], .said .warn (ascii "odd")],
    [(.backendRead, 1), (.indexLoad, 2), (.backendRead, 3)], .ok ()⟩

/-- `cat` prints what it prints; `check` also what it says; with `-vv` the counters are there. -/
example :
    Runs ⟨0, none, some [0x2f, 112], [114], .cat⟩ twoDirs ⟨2 ^ 30, [], false, none⟩ [0x2f, 112] ∧
    main busy ⟨0, none, some [0x2f, 112], [114], .cat⟩ twoDirs = ⟨[1, 2, 3], [.message .warn (ascii "odd")], 0⟩ ∧
    main busy ⟨0, none, none, [114], .check⟩ twoDirs =
      ⟨ascii "Opening" ++ [10, 1, 2, 3], [.message .warn (ascii "odd")], 0⟩ ∧
    main busy ⟨2, none, none, [114], .cat⟩ twoDirs =
      ⟨[1, 2, 3], [.message .info (ascii "Opening"), .message .warn (ascii "odd"), .message .debug (ascii "Counters:"),
        .message .debug (ascii "     2 indexes loaded"), .message .debug (ascii "     4 backend reads")], 0⟩ :=
  ⟨⟨by decide +kernel, .inr ⟨_, rfl, rfl, rfl⟩⟩, by decide +kernel, by decide +kernel, by decide +kernel⟩

end Backpak.C91
