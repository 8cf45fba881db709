import Verif.Spec.Reading
import Verif.Model.Dump
import Verif.Model.Restore

/-!
# Commands as programs that read packs one after another
-/

namespace Backpak

open Spec

variable {Id A B : Type}

namespace Spec.Reading

/-- If it does not fail, it comes to what it would have come to if all packs had stayed. -/
theorem runOver_good {P : Id → Prop} {Bad : A → Prop} {T : Reading Id A} (h : T.Careful P Bad)
    {f : Nat → Id → Res Stream} {g : Id → Res Stream} (hf : ∀ n p s, P p → f n p = .ok s → g p = .ok s) (n : Nat)
    (hb : ¬ Bad (T.runOver f n)) : T.runOver f n = T.run g := by
  induction h generalizing n with
  | done a => rfl
  | @read p next stop hp _ hs ih =>
    rw [runOver] at hb
    rw [runOver, run]
    cases hfp : f n p with
    | error e => rw [hfp] at hb; exact absurd (hs e) hb
    | ok s =>
      rw [hfp] at hb
      rw [hf n p s hp hfp]
      exact ih s (n + 1) hb

/-- If the packs it may ask for stay, it comes to the same. -/
theorem runOver_same {P : Id → Prop} {Bad : A → Prop} {T : Reading Id A} (h : T.Careful P Bad)
    {f : Nat → Id → Res Stream} {g : Id → Res Stream} (hf : ∀ n p, P p → f n p = g p) (n : Nat) :
    T.runOver f n = T.run g := by
  induction h generalizing n with
  | done a => rfl
  | @read p next stop hp _ hs ih =>
    unfold runOver run
    rw [hf n p hp]
    cases g p with
    | error e => rfl
    | ok s => exact ih s (n + 1)

/-- One program after another; `h` is what the second comes to if the first failed. -/
def bind (k : A → Reading Id B) (h : A → B) : Reading Id A → Reading Id B
  | .done a => k a
  | .read p next stop => .read p (fun s => (next s).bind k h) (fun e => h (stop e))

theorem run_bind {P : Id → Prop} {Bad : A → Prop} {T : Reading Id A} (hT : T.Careful P Bad) {k : A → Reading Id B}
    {h : A → B} (hk : ∀ a, Bad a → k a = .done (h a)) (f : Id → Res Stream) :
    (T.bind k h).run f = (k (T.run f)).run f := by
  induction hT with
  | done a => rfl
  | @read p next stop _ _ hs ih =>
    have e : (Reading.read p next stop).run f = (match f p with | .ok s => (next s).run f | .error e => stop e) := by
      rw [run]
      cases f p <;> rfl
    rw [bind, run, e]
    cases f p with
    | error e => dsimp only; rw [hk _ (hs e)]; rfl
    | ok s => exact ih s

theorem careful_bind {P : Id → Prop} {BadA : A → Prop} {BadB : B → Prop} {T : Reading Id A} (hT : T.Careful P BadA)
    {k : A → Reading Id B} {h : A → B} (hk : ∀ a, (k a).Careful P BadB) (hb : ∀ a, BadA a → BadB (h a)) :
    (T.bind k h).Careful P BadB := by
  induction hT with
  | done a => exact hk a
  | read hp _ hs ih => exact .read hp ih (fun e => hb _ (hs e))

end Spec.Reading

/-- A command is such a program. -/
def Reads (P : Id → Prop) (Bad : A → Prop) (cmd : (Id → Res Stream) → A) : Prop := ∃ T, Does P Bad cmd T

theorem Reads.pure {P : Id → Prop} {Bad : A → Prop} (a : A) : Reads P Bad (fun _ => a) :=
  ⟨.done a, .done a, fun _ => rfl⟩

theorem Reads.read {P : Id → Prop} {p : Id} (hp : P p) : Reads P Failed (fun f => f p) :=
  ⟨.read p (fun s => .done (.ok s)) (fun e => .error e), .read hp (fun _ => .done _) (fun e => ⟨e, rfl⟩), fun f => by
    unfold Reading.run
    cases f p <;> rfl⟩

/-- One after another. -/
theorem Reads.bind {P : Id → Prop} {BadA : A → Prop} {BadB : B → Prop} {m : (Id → Res Stream) → A}
    {k : A → (Id → Res Stream) → B} (hm : Reads P BadA m) (hk : ∀ a, ¬ BadA a → Reads P BadB (k a))
    (hb : ∀ a, BadA a → ∃ b, BadB b ∧ ∀ f, k a f = b) : Reads P BadB (fun f => k (m f) f) := by
  classical
  obtain ⟨T, hT⟩ := hm
  have hK : ∀ a, ∃ T' : Reading Id B, Does P BadB (k a) T' ∧ (BadA a → ∃ b, BadB b ∧ T' = .done b) := by
    intro a
    by_cases ha : BadA a
    · obtain ⟨b, h1, h2⟩ := hb a ha
      exact ⟨.done b, ⟨.done b, fun f => (h2 f).symm⟩, fun _ => ⟨b, h1, rfl⟩⟩
    · obtain ⟨T', h'⟩ := hk a ha
      exact ⟨T', h', fun h => absurd h ha⟩
  choose K hK1 hK2 using hK
  have hH : ∀ a, ∃ b, BadA a → BadB b ∧ K a = .done b := by
    intro a
    by_cases ha : BadA a
    · obtain ⟨b, h⟩ := hK2 a ha
      exact ⟨b, fun _ => h⟩
    · obtain ⟨b⟩ : Nonempty B := ⟨k a (fun _ => .error (.err ""))⟩
      exact ⟨b, fun h => absurd h ha⟩
  choose h hh using hH
  refine ⟨T.bind K h, Reading.careful_bind hT.careful (fun a => (hK1 a).careful) (fun a ha => (hh a ha).1), fun f => ?_⟩
  rw [Reading.run_bind hT.careful (fun a ha => (hh a ha).2), hT.same, (hK1 _).same]

theorem Reads.congr {P : Id → Prop} {Bad : A → Prop} {c c' : (Id → Res Stream) → A} (h : Reads P Bad c)
    (e : ∀ f, c' f = c f) : Reads P Bad c' := by
  have : c' = c := funext e
  rw [this]
  exact h

/-- Pass failures on. -/
theorem Reads.andThen {P : Id → Prop} {Bad : B → Prop} {m : (Id → Res Stream) → Res A}
    {k : A → (Id → Res Stream) → B} {stop : Fail → B} (hm : Reads P Failed m) (hk : ∀ a, Reads P Bad (k a))
    (hs : ∀ e, Bad (stop e)) :
    Reads P Bad (fun f => match m f with | .error e => stop e | .ok a => k a f) := by
  refine Reads.bind (k := fun r f => match r with | .error e => stop e | .ok a => k a f) hm (fun a ha => ?_) ?_
  · cases a with
    | error e => exact absurd ⟨e, rfl⟩ ha
    | ok a => exact hk a
  · rintro _ ⟨e, rfl⟩
    exact ⟨stop e, hs e, fun _ => rfl⟩

/-- The same, for a command written in another way. -/
theorem Reads.after {P : Id → Prop} {Bad : B → Prop} {c : (Id → Res Stream) → B} {m : (Id → Res Stream) → Res A}
    {k : A → (Id → Res Stream) → B} {stop : Fail → B} (hm : Reads P Failed m) (hk : ∀ a, Reads P Bad (k a))
    (hs : ∀ e, Bad (stop e)) (h1 : ∀ f e, m f = .error e → c f = stop e) (h2 : ∀ f a, m f = .ok a → c f = k a f) :
    Reads P Bad c :=
  (Reads.andThen hm hk hs).congr (fun f => by
    cases h : m f with
    | error e => exact h1 f e h
    | ok a => exact h2 f a h)

theorem failed_error {e : Fail} : Failed (.error e : Res A) := ⟨e, rfl⟩

section Commands

variable [LinearOrder Id] {C : Codec Id} {ix : Index Id} {bm : BMap Id Id}

omit [LinearOrder Id] in
theorem forSubtrees_reads {S : Type} {P : Id → Prop} {g : (Id → Res Stream) → Id → S → Res S}
    (hg : ∀ u s, Reads P Failed (fun f => g f u s)) (t : Tree Id) (s : S) :
    Reads P Failed (fun f => forSubtrees (g f) t s) := by
  induction t generalizing s with
  | nil => exact .pure _
  | cons e t ih =>
    obtain ⟨n, c, md⟩ := e
    cases c with
    | file cs => exact ih s
    | link tg => exact ih s
    | dir sub =>
      exact Reads.after (stop := .error) (hg sub s) ih (fun _ => failed_error)
        (fun f e h => by simp only [forSubtrees, h]) (fun f a h => by simp only [forSubtrees, h])

/-- The packs that the lookup table refers to. -/
def Named (bm : BMap Id Id) (p : Id) : Prop := ∃ b, bm.get? b = some p

theorem treeRead_reads (cache : Forest Id) (id : Id) :
    Reads (Named bm) Failed (fun f => treeRead C ⟨ix, bm, f⟩ cache id) := by
  cases hc : cache.get? id with
  | some t => exact (Reads.pure (.ok (t, cache))).congr (fun f => by simp only [treeRead, hc])
  | none =>
    cases hb : bm.get? id with
    | none =>
      exact (Reads.pure (.error (.err "No pack contains tree"))).congr (fun f => by simp only [treeRead, hc, hb])
    | some p =>
      refine Reads.after (stop := .error) (k := fun s _ => treeRead C ⟨ix, bm, fun _ => .ok s⟩ cache id)
        (.read ⟨id, hb⟩) (fun s => .pure _) (fun _ => failed_error)
        (fun f e h => by simp only [treeRead, hc, hb, h]) (fun f a h => by simp only [treeRead, hc, hb, h])

theorem appendTree_reads (n : Nat) (stack : List Id) (id : Id) (s : Forest Id × Forest Id) :
    Reads (Named bm) Failed (fun f => appendTree C ⟨ix, bm, f⟩ n stack id s) := by
  induction n generalizing stack id s with
  | zero => exact .pure _
  | succ n ih =>
    obtain ⟨forest, cache⟩ := s
    by_cases hs : id ∈ stack
    · exact (Reads.pure (.error (.err "Cycle detected!"))).congr (fun f => by simp only [appendTree, hs, if_true])
    · exact Reads.after (stop := .error) (treeRead_reads (C := C) (ix := ix) cache id)
        (k := fun r f => forSubtrees (appendTree C ⟨ix, bm, f⟩ n (id :: stack)) r.1 (BMap.insert id r.1 forest, r.2))
        (fun r => forSubtrees_reads (fun u s => ih _ u s) _ _) (fun _ => failed_error)
        (fun f e h => by simp only [appendTree, hs, if_false, h])
        (fun f a h => by simp only [appendTree, hs, if_false, h])

theorem forestFromRoot_reads (root : Id) (cache : Forest Id) :
    Reads (Named bm) Failed (fun f => forestFromRoot C ⟨ix, bm, f⟩ root cache) :=
  appendTree_reads (bm.length + cache.length + 1) [] root ([], cache)

theorem readBlob_reads {H : Bytes → Id} {env : CacheEnv Id} (s : ReaderState Id) (id : Id) :
    Reads (Named bm) Failed (fun f => readBlob H ⟨ix, bm, f⟩ env s id) := by
  cases hc : cacheGet env s id with
  | some r => exact (Reads.pure (.ok r)).congr (fun f => by simp only [readBlob, hc])
  | none =>
    cases hb : bm.get? id with
    | none =>
      exact (Reads.pure (.error (.err "Chunk not found in any pack"))).congr
        (fun f => by simp only [readBlob, hc, hb])
    | some p =>
      refine Reads.after (stop := .error) (k := fun x _ => readBlob H ⟨ix, bm, fun _ => .ok x⟩ env s id)
        (.read ⟨id, hb⟩) (fun s => .pure _) (fun _ => failed_error)
        (fun f e h => by simp only [readBlob, hc, hb, h]) (fun f a h => by simp only [readBlob, hc, hb, h])

theorem readBlobs_reads {H : Bytes → Id} {env : CacheEnv Id} (s : ReaderState Id) (l : List Id) :
    Reads (Named bm) Failed (fun f => readBlobs H ⟨ix, bm, f⟩ env s l) := by
  induction l generalizing s with
  | nil => exact .pure _
  | cons id l ih =>
    exact Reads.after (stop := .error) (readBlob_reads (H := H) (env := env) (ix := ix) s id)
      (k := fun r f => match readBlobs H ⟨ix, bm, f⟩ env r.2 l with
        | .error e => .error e
        | .ok (xs, s'') => .ok (r.1 :: xs, s''))
      (fun r => Reads.after (stop := .error) (k := fun q _ => .ok (r.1 :: q.1, q.2)) (ih r.2) (fun _ => .pure _)
        (fun _ => failed_error) (fun f e h => by simp only [h]) (fun f a h => by simp only [h]))
      (fun _ => failed_error) (fun f e h => by simp only [readBlobs, h]) (fun f a h => by simp only [readBlobs, h]; rfl)

theorem ls_reads (s : Snapshot Id) : Reads (Named bm) Failed (fun f => ls C ⟨ix, bm, f⟩ s) :=
  Reads.after (stop := .error) (forestFromRoot_reads (C := C) (ix := ix) s.tree (newTreeCache C))
    (k := fun r _ => walkTree r.1 (r.1.length + 1) [] s.tree) (fun _ => .pure _)
    (fun _ => failed_error) (fun f e h => by simp only [ls, h]) (fun f a h => by simp only [ls, h])

theorem diff_reads (withMeta : Bool) (s1 s2 : Snapshot Id) :
    Reads (Named bm) Failed (fun f => diffSnapshots C ⟨ix, bm, f⟩ withMeta s1 s2) :=
  Reads.after (stop := .error) (forestFromRoot_reads (C := C) (ix := ix) s1.tree (newTreeCache C))
    (k := fun r f => match forestFromRoot C ⟨ix, bm, f⟩ s2.tree r.2 with
      | .error e => .error e
      | .ok (F2, _) => diffForests withMeta r.1 F2 s1.tree s2.tree)
    (fun r => Reads.after (stop := .error) (forestFromRoot_reads (C := C) (ix := ix) s2.tree r.2)
      (k := fun q _ => diffForests withMeta r.1 q.1 s1.tree s2.tree) (fun _ => .pure _)
      (fun _ => failed_error) (fun f e h => by simp only [h]) (fun f a h => by simp only [h]))
    (fun _ => failed_error) (fun f e h => by simp only [diffSnapshots, h])
    (fun f a h => by simp only [diffSnapshots, h]; rfl)

/-- What a dump comes to is a failure. -/
def DumpFailed (r : List (Dumped Id) × Res Unit) : Prop := Failed r.2

theorem dumpFrom_reads {env : CacheEnv Id} (l : List Comp) (path : Path) (id : Id) (cache : Forest Id) :
    Reads (Named bm) DumpFailed (fun f => dumpFrom C ⟨ix, bm, f⟩ env l path id cache) := by
  induction l generalizing path id cache with
  | nil => exact .pure _
  | cons c rest ih =>
    cases c with
    | cur => exact ih path id cache
    | other => exact .pure _
    | normal n =>
      refine Reads.after (stop := fun e => ([], .error e)) (treeRead_reads (C := C) (ix := ix) cache id)
        (k := fun (r : Tree Id × Forest Id) f => match BMap.get? r.1 n with
          | none => ([], .error (.err "Couldn't find in the given snapshot"))
          | some ⟨.dir sub, _⟩ =>
            if rest.isEmpty then
              match treeRead C ⟨ix, bm, f⟩ r.2 sub with
              | .error e => ([], .error e)
              | .ok (u, _) => ([.dir (path ++ [n]) u], .ok ())
            else dumpFrom C ⟨ix, bm, f⟩ env rest (path ++ [n]) sub r.2
          | some ⟨.link target, _⟩ =>
            let q := dumpFrom C ⟨ix, bm, f⟩ env rest (path ++ [n]) id r.2
            (.link (path ++ [n]) target :: q.1, q.2)
          | some ⟨.file cs, _⟩ =>
            if rest.isEmpty then
              match readBlobs C.hash ⟨ix, bm, f⟩ env ReaderState.new cs with
              | .error e => ([], .error e)
              | .ok (parts, _) => ([.file parts.flatten], .ok ())
            else ([], .error (.err "is a file, not a directory")))
        (fun r => ?_) (fun e => ⟨e, rfl⟩) (fun f e h => by simp only [dumpFrom, h])
        (fun f a h => by simp only [dumpFrom, h]; rfl)
      cases BMap.get? r.1 n with
      | none => exact .pure _
      | some x =>
        obtain ⟨c, md⟩ := x
        cases c with
        | file cs =>
          dsimp only
          split
          · exact Reads.after (stop := fun e => ([], .error e)) (readBlobs_reads (H := C.hash) (env := env) (ix := ix) ReaderState.new cs)
              (k := fun q _ => ([.file q.1.flatten], .ok ())) (fun _ => .pure _) (fun e => ⟨e, rfl⟩)
              (fun f e h => by simp only [h]) (fun f a h => by simp only [h])
          · exact .pure _
        | link tg =>
          exact Reads.bind (m := fun f => dumpFrom C ⟨ix, bm, f⟩ env rest (path ++ [n]) id r.2)
            (k := fun q _ => (.link (path ++ [n]) tg :: q.1, q.2)) (ih _ _ _) (fun _ _ => .pure _)
            (fun q hq => ⟨(.link (path ++ [n]) tg :: q.1, q.2), hq, fun _ => rfl⟩)
        | dir sub =>
          dsimp only
          split
          · exact Reads.after (stop := fun e => ([], .error e)) (treeRead_reads (C := C) (ix := ix) r.2 sub)
              (k := fun q _ => ([.dir (path ++ [n]) q.1], .ok ())) (fun _ => .pure _) (fun e => ⟨e, rfl⟩)
              (fun f e h => by simp only [h]) (fun f a h => by simp only [h])
          · exact ih _ _ _

theorem dump_reads {env : CacheEnv Id} (s : Snapshot Id) (path : List Comp) :
    Reads (Named bm) DumpFailed (fun f => dump C ⟨ix, bm, f⟩ env s path) := dumpFrom_reads _ _ _ _

theorem restore_reads {cut : Bytes → Nat} {look : Look} {dangling : Path → Bool} (args : RestoreArgs) (s : Snapshot Id) :
    Reads (Named bm) Failed (fun f => restore C ⟨ix, bm, f⟩ cut look dangling args s) :=
  Reads.after (stop := .error) (forestFromRoot_reads (C := C) (ix := ix) s.tree (newTreeCache C))
    (k := fun r _ => match loadTarget C cut look dangling args.output s r.1 with
      | .error e => .error e
      | .ok tgt =>
        compareTrees (restorer args tgt.places tgt.forest r.1) tgt.forest r.1 (tgt.forest.length + 1) []
          tgt.root s.tree ([], []))
    (fun _ => .pure _) (fun _ => failed_error) (fun f e h => by simp only [restore, h])
    (fun f a h => by simp only [restore, h]; rfl)

/-- What some calls come to is a failure. -/
def CallFailed (r : Outcome Id) : Prop := ∃ e, r.2 = some e

theorem fillFile_reads {H : Bytes → Id} {cenv : CacheEnv Id} (p : Path) (cs : List Id) (d : Disk Id) :
    Reads (Named bm) CallFailed (fun f => fillFile H ⟨ix, bm, f⟩ cenv p cs d) := by
  induction cs generalizing d with
  | nil => exact .pure _
  | cons c cs ih =>
    refine Reads.after (stop := fun e => (d, some e)) (readBlob_reads (H := H) (env := cenv) (ix := ix) d.reader c)
      (k := fun r f => match d.fs p with
        | some ⟨.file y, m, tm⟩ =>
          fillFile H ⟨ix, bm, f⟩ cenv p cs { d with fs := d.fs.put p (some ⟨.file (y ++ r.1), m, tm⟩), reader := r.2 }
        | _ => (d, some (.err "the file is gone"))) (fun r => ?_) (fun e => ⟨e, rfl⟩)
      (fun f e h => by simp only [fillFile, h]) (fun f a h => by simp only [fillFile, h]; rfl)
    split
    · exact ih _
    · exact .pure _

theorem call_reads {H : Bytes → Id} {cenv : CacheEnv Id} {env : FsEnv} (op : SysOp Id) (d : Disk Id) :
    Reads (Named bm) CallFailed (fun f => call H ⟨ix, bm, f⟩ cenv env op d) := by
  unfold call
  by_cases hv : op.refused = true
  · simp only [hv, if_true]
    exact .pure _
  simp only [if_neg hv]
  cases d.fs.way op.path with
  | through => exact .pure _
  | missing => exact .pure _
  | here =>
    dsimp only
    unfold callHere
    dsimp only
    split <;> first | exact fillFile_reads _ _ _ | exact .pure _

theorem calls_reads {H : Bytes → Id} {cenv : CacheEnv Id} {env : FsEnv} (ops : List (SysOp Id)) (d : Disk Id) :
    Reads (Named bm) CallFailed (fun f => calls H ⟨ix, bm, f⟩ cenv env ops d) := by
  induction ops generalizing d with
  | nil => exact .pure _
  | cons op ops ih =>
    refine (Reads.bind (m := fun f => call H ⟨ix, bm, f⟩ cenv env op d) (BadB := CallFailed)
      (k := fun r f => match r with
        | (d', some e) => (d', some e)
        | (d', none) => calls H ⟨ix, bm, f⟩ cenv env ops d') (call_reads op d) (fun a ha => ?_) ?_).congr
        (fun f => by simp only [calls]; rfl)
    · obtain ⟨d', e⟩ := a
      cases e with
      | some e => exact .pure _
      | none => exact ih d'
    · rintro ⟨d', e⟩ ⟨e', he⟩
      cases he
      exact ⟨(d', some e'), ⟨e', rfl⟩, fun _ => rfl⟩

end Commands

end Backpak
