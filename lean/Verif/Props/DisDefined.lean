import Verif.Lemmas.DisHistory
import Verif.Lemmas.Driver
import Verif.Props.Driver

/-! # C71: the disassembling tools do not crash -/

namespace Nsasm.Props
open Nsasm Nsasm.Spec Disassembler Tools

/-! ## Calls -/

theorem pull_opcodes : ∀ op : UInt8, (decodeOpcode op).1 ∈ [Mnemonic.pla, .plx, .ply] → op = 0x68 ∨ op = 0x7a ∨ op = 0xfa := by
  apply forall_byte
  decide +kernel

theorem hasPull_of {src : Source} {a : Nat} (h : PullAt src a) : HasPull src a := by
  obtain ⟨bytes, f, i, hb, hd, hm⟩ := h
  rw [decode_ok_iff] at hd
  obtain ⟨op, l, m, a1, a2, rfl, -, -, -, -, rfl⟩ := hd
  exact ⟨op, l, hb, pull_opcodes op hm⟩

theorem session_fine {src : Source} {d : Disassembler} (h : Session HasName src d) : FineListing False d := by
  induction h with
  | new => intro a it h; cases h
  | table before sorted ok ih => exact ih
  | call before address ok result ended ih =>
    exact disassemble_fine (session_closed before) ih address (constructible_normal ok) (fun h => h.elim) result

/-- What holds between calls, whatever the history. -/
theorem history_steadied {src : Source} {d : Disassembler} (h : History HasName src d) : Steadied False src d := by
  induction h with
  | new =>
    exact ⟨history_proper (fun f hf => normal_written hf) (.new (P := HasName) (src := src)),
      by simp [TableWritten, Disassembler.empty, OMap.find], by simp [Disassembler.empty, OMap.find],
      fun a it h => by cases h⟩
  | table before sorted ok ih =>
    exact ⟨history_proper (fun f hf => normal_written hf) (.table before sorted ok),
      fun a f hf => ok a f (OMap.mem_of_find hf), ih.kept, ih.fine⟩
  | call before address ok result ended ih =>
    exact steadied_call ih address (constructible_normal ok) (fun h => h.elim) result
  | cleanup before result ih => exact steadied_cleanup ih result

theorem sized_steadied {src : Source} {d : Disassembler} (h : SizedHistory HasName src d) :
    History HasName src d ∧ Steadied True src d := by
  induction h with
  | new =>
    have := history_steadied (src := src) .new
    exact ⟨.new, this.proper, this.table, this.kept, fun a it h => by cases h⟩
  | table before sorted ok ih =>
    have := history_steadied (.table ih.1 sorted ok)
    exact ⟨.table ih.1 sorted ok, this.proper, this.table, ih.2.kept, ih.2.fine⟩
  | call before address ok sizes result ended ih =>
    exact ⟨.call ih.1 address ok result ended,
      steadied_call ih.2 address (constructible_normal ok) (fun _ => sizes) result⟩
  | cleanup before result ih => exact ⟨.cleanup ih.1 result, steadied_cleanup ih.2 result⟩

/-- **A call is defined** if it and the calls before it say how wide the registers are, and the source can be read
without undefined behaviour.  `Cleanup` may have been called before. -/
theorem C71_defined_partial {src : Source} (hsrc : ∀ a u, src a 4 ≠ .ub u) {d : Disassembler} (h : SizedHistory HasName src d)
    {fuel start : Nat} (hs : start ≤ 0x1000000) {flags : StatusFlags} (hf : Constructible flags) (hz : GivesSizes flags)
    (u : Ub) : (d.disassemble fuel src start flags).2 ≠ .ub u := by
  intro hu
  rcases steadied_defined (Q := True) (fun a => noUb_of_ne (hsrc a)) (sized_steadied h).2 hs (constructible_normal hf)
    (fun _ => hz) (fuel := fuel) with h | ⟨h, -⟩
  · rw [hu] at h; exact h
  · exact h trivial

/-- **What is to blame** when a call is undefined: the program pulls a register from the stack. -/
theorem C71_cause {src : Source} (hsrc : ∀ a u, src a 4 ≠ .ub u) {d : Disassembler} (h : History HasName src d)
    {fuel start : Nat} (hs : start ≤ 0x1000000) {flags : StatusFlags} (hf : Constructible flags)
    {u : Ub} (hu : (d.disassemble fuel src start flags).2 = .ub u) : ∃ a, HasPull src a := by
  rcases steadied_defined (Q := False) (fun a => noUb_of_ne (hsrc a)) (history_steadied h) hs
    (constructible_normal hf) (fun h => h.elim) (fuel := fuel) with h | ⟨-, a, h⟩
  · rw [hu] at h; cases h
  · exact ⟨a, hasPull_of h⟩

/-- **Cleanup** is always defined, and has no errors, even if it is called again. -/
theorem C71_cleanup {src : Source} {d : Disassembler} (h : History HasName src d) : ∃ d', d.cleanup = .ok d' :=
  steadied_cleanup_ok (history_steadied h)

/-! ## The tools -/

theorem pass_defined {Q : Prop} {msg : Err → Str} {fuel : Nat} {src : Source} (hsrc : ∀ a, (src a 4).noUb)
    {known : Addr → Bool} : ∀ (l : List (Nat × StatusFlags)) {d : Disassembler} {new : OMap StatusFlags},
      Session HasName src d → FineListing Q d →
      (∀ a f, (a, f) ∈ l → a ≤ 0x1000000 ∧ Constructible f ∧ (Q → GivesSizes f)) →
      ((pass msg fuel src known l d new).noUb ∨ (¬ Q ∧ ∃ a, PullAt src a)) ∧
      ∀ d' new' ls, pass msg fuel src known l d new = .ok (d', new', ls) → FineListing Q d' := by
  intro l
  induction l with
  | nil =>
    intro d new _ hf _
    refine ⟨.inl trivial, fun d' new' ls h => ?_⟩
    simp only [pass, Res.ok.injEq, Prod.mk.injEq] at h
    rw [← h.1]; exact hf
  | cons p l ih =>
    obtain ⟨a, f⟩ := p
    intro d new hs hf hl
    obtain ⟨ha, hc, hz⟩ := hl a f (by simp)
    have hl' : ∀ b g, (b, g) ∈ l → b ≤ 0x1000000 ∧ Constructible g ∧ (Q → GivesSizes g) := fun b g hb => hl b g (by simp [hb])
    unfold pass
    split
    · exact ih hs hf hl'
    · have hdef := disassemble_defined (fuel := fuel) hsrc (session_closed hs) hf ha (constructible_normal hc) hz
      split
      · next d₁ u hcall =>
        rw [hcall] at hdef
        exact ⟨.inr (hdef.resolve_left id), fun d' new' ls h => by cases h⟩
      · next d₁ far hcall =>
        exact ih (.call hs ha hc hcall trivial) (disassemble_fine (session_closed hs) hf ha (constructible_normal hc) hz hcall) hl'
      · next d₁ e hcall =>
        split
        · exact ⟨.inl trivial, fun d' new' ls h => by cases h⟩
        · next he =>
          obtain ⟨i1, i2⟩ := ih (new := new) (.call hs ha hc hcall he)
            (disassemble_fine (session_closed hs) hf ha (constructible_normal hc) hz hcall) hl'
          refine ⟨i1.imp_left fun h => Res.noUb_bind h fun ⟨_, _, _⟩ _ => trivial, fun d' new' ls h => ?_⟩
          obtain ⟨⟨d₂, new₂, ls₂⟩, hrest, h⟩ := Res.bind_eq_ok.mp h
          simp only [Res.ok.injEq, Prod.mk.injEq] at h
          rw [← h.1]
          exact i2 _ _ _ hrest

/-- All seeds of the first `n` passes give the sizes of the registers. -/
def SeedsSized (msg : Err → Str) (fuel : Nat) (src : Source) (n : Nat) (d : Disassembler) (seeds : OMap StatusFlags) : Prop :=
  ∀ k < n, ∀ d' left ls, passes msg fuel src (fun _ => false) k d seeds = .ok (d', left, ls) → ∀ a f, (a, f) ∈ left → GivesSizes f

theorem passes_defined {Q : Prop} {msg : Err → Str} {fuel : Nat} {src : Source} (hsrc : ∀ a, (src a 4).noUb) :
    ∀ (n : Nat) {d : Disassembler} {log : List (OMap StatusFlags)} {seeds : OMap StatusFlags}, Reported HasName src d log →
      FineListing Q d → Seeds seeds → (Q → SeedsSized msg fuel src n d seeds) →
      (passes msg fuel src (fun _ => false) n d seeds).noUb ∨ (¬ Q ∧ ∃ a, PullAt src a) := by
  intro n
  induction n with
  | zero => intro d log seeds _ _ _ _; left; trivial
  | succ n ih =>
    intro d log seeds hr hf hs hq
    have hl : ∀ a f, (a, f) ∈ seeds → a ≤ 0x1000000 ∧ Constructible f ∧ f.c = .unknown :=
      fun a f ha => hs.2 a f (OMap.find_of_mem hs.1 ha)
    obtain ⟨p1, p2⟩ := pass_defined (msg := msg) (fuel := fuel) hsrc (known := fun _ => false) (new := []) seeds (reported_session hr) hf
      (fun a f ha => ⟨(hl a f ha).1, (hl a f ha).2.1, fun q => hq q 0 (by omega) d seeds [] rfl a f ha⟩)
    by_cases hpull : ¬ Q ∧ ∃ a, PullAt src a
    · exact .inr hpull
    left
    unfold passes
    refine Res.noUb_bind (p1.resolve_right hpull) fun ⟨d₁, new, ls⟩ hpass => ?_
    obtain ⟨⟨-, j2, ⟨log₁, j3, -⟩, -, -⟩, -, -⟩ :=
      pass_did seeds hr ⟨List.Pairwise.nil, fun a f h => by cases h⟩ hl hpass
    refine Res.noUb_bind ((ih j3 (p2 _ _ _ hpass) j2 fun q k hk d' left ls' h => ?_).resolve_right hpull) fun ⟨_, _, _⟩ _ => trivial
    refine hq q (k + 1) (by omega) d' left (ls ++ ls') ?_
    conv => lhs; unfold passes
    rw [hpass, Res.bind_ok]
    simp only
    rw [h, Res.bind_ok]

theorem readWord_defined (rom : Rom) (a : Nat) : (rom.readWord a).noUb ∧ ∀ v, rom.readWord a = .ok v → 0 ≤ v ∧ v < 65536 := by
  have hlen : ∀ bs, rom.read a 2 = .ok bs → 2 ≤ bs.length := by
    intro bs h
    unfold Rom.read at h
    rw [if_neg (by decide), if_neg (by decide)] at h
    obtain ⟨first, -, h⟩ := Res.bind_eq_ok.mp h
    obtain ⟨last, -, h⟩ := Res.bind_eq_ok.mp h
    split at h
    · split at h
      · cases h
      · cases h
        rw [List.length_take, List.length_drop]
        omega
    · have hloop : ∀ n i bs, rom.readLoop a i n = .ok bs → bs.length = n := by
        intro n
        induction n with
        | zero => intro i bs h; cases h; rfl
        | succ n ih =>
          intro i bs h
          rw [Rom.readLoop] at h
          obtain ⟨off, -, h⟩ := Res.bind_eq_ok.mp h
          split at h
          · cases h
          · obtain ⟨rest, hr, h⟩ := Res.bind_eq_ok.mp h
            cases h
            simp [ih _ _ hr]
      have := hloop _ _ _ h
      simp at this
      omega
  unfold Rom.readWord
  constructor
  · refine Res.noUb_bind (C29_read_defined rom a 2).1 fun bs hbs => ?_
    have := hlen bs hbs
    match bs, this with
    | b0 :: b1 :: bs, _ => trivial
  · intro v hv
    obtain ⟨bs, hbs, hv⟩ := Res.bind_eq_ok.mp hv
    have := hlen bs hbs
    match bs, this, hv with
    | b0 :: b1 :: bs, _, hv =>
      simp only [Res.ok.injEq] at hv
      have := b0.toNat_lt
      have := b1.toNat_lt
      omega

theorem readSeeds_defined {msg : Err → Str} {rom : Rom} : ∀ (args : List SeedArg) (m : OMap StatusFlags),
    (∀ arg ∈ args, arg.number ≤ 0x1000000) → (readSeeds msg rom m args).noUb := by
  intro args
  induction args with
  | nil => intro m _; trivial
  | cons arg args ih =>
    intro m h
    unfold readSeeds
    refine Res.noUb_bind ?_ fun x _ => ?_
    · have hn := h arg (by simp)
      unfold readSeed
      split
      · trivial
      · have hof : Address.ofInt (arg.number : Int) = .ok arg.number := by
          unfold Address.ofInt
          rw [if_pos ⟨by omega, by omega⟩]; simp
        rw [hof, Res.bind_ok]
        split
        · obtain ⟨h1, h2⟩ := readWord_defined rom arg.number
          split
          · next u hu => rw [hu] at h1; cases h1
          · trivial
          · next v hv =>
            obtain ⟨h3, h4⟩ := h2 v hv
            refine Res.noUb_bind ?_ fun _ _ => trivial
            unfold Address.ofInt
            rw [if_pos ⟨h3, by omega⟩]; trivial
        · trivial
    · split
      · trivial
      · exact ih _ fun arg h' => h arg (by simp [h'])

theorem rom_defined (rom : Rom) (a : Nat) : (rom.read a 4).noUb := (C29_read_defined rom a 4).1

theorem disassembleRom_defined {Q : Prop} {msg : Err → Str} {fuel : Nat} {rom : Rom} {args : List SeedArg}
    (hn : ∀ arg ∈ args, arg.number ≤ 0x1000000)
    (hq : Q → ∀ seeds, readSeeds msg rom [] args = .ok (.ok seeds) → SeedsSized msg fuel rom.read 100 .empty seeds) :
    (disassembleRom msg fuel rom args).noUb ∨ (¬ Q ∧ ∃ a, PullAt rom.read a) := by
  by_cases hpull : ¬ Q ∧ ∃ a, PullAt rom.read a
  · exact .inr hpull
  left
  unfold disassembleRom
  refine Res.noUb_bind (readSeeds_defined args [] hn) fun x hx => ?_
  cases x with
  | error line => trivial
  | ok seeds =>
    simp only
    have hs := (readSeeds_spec args ⟨List.Pairwise.nil, fun a f h => by cases h⟩ hx).1
    refine Res.noUb_bind ((passes_defined (rom_defined rom) 100 (empty_reported _) (fun a it h => by cases h) hs
      fun q => hq q seeds hx).resolve_right hpull) fun ⟨d, left, ls⟩ hd => ?_
    obtain ⟨⟨-, -, ⟨log, h3, -⟩, -, -⟩, -⟩ := passes_did 100 (empty_reported _) hs hd
    obtain ⟨d', hc⟩ := closed_cleanup (session_closed (reported_session h3))
    simp only
    unfold finishListing
    rw [hc]
    trivial

/-- **The tool does not crash** on a program that never pulls a register, for start addresses that are addresses. -/
theorem C71_tool_cause {msg : Err → Str} {fuel : Nat} {rom : Rom} {args : List SeedArg} {u : Ub}
    (h : disassembleRom msg fuel rom args = .ub u) : (∃ arg ∈ args, 0x1000000 < arg.number) ∨ ∃ a, HasPull rom.read a := by
  by_contra hc
  rw [not_or] at hc
  rcases disassembleRom_defined (Q := False) (msg := msg) (fuel := fuel) (rom := rom) (args := args)
    (fun arg ha => Nat.le_of_not_lt fun hlt => hc.1 ⟨arg, ha, hlt⟩) (fun h => h.elim) with h1 | ⟨-, a, h1⟩
  · rw [h] at h1; exact h1
  · exact hc.2 ⟨a, hasPull_of h1⟩

/-- **Nor does it crash** if the sizes of the registers are given for every start and known for every routine
found. -/
theorem C71_tool_sizes_partial {msg : Err → Str} {fuel : Nat} {rom : Rom} {args : List SeedArg}
    (hn : ∀ arg ∈ args, arg.number ≤ 0x1000000)
    (hq : ∀ seeds, readSeeds msg rom [] args = .ok (.ok seeds) → ∀ k < 100, ∀ d left ls,
      passes msg fuel rom.read (fun _ => false) k .empty seeds = .ok (d, left, ls) → ∀ a f, (a, f) ∈ left → GivesSizes f)
    (u : Ub) : disassembleRom msg fuel rom args ≠ .ub u := by
  rcases disassembleRom_defined (Q := True) (msg := msg) (fuel := fuel) (rom := rom) (args := args) hn
    (fun _ => hq) with h1 | ⟨h1, -⟩
  · exact ne_of_noUb h1 u
  · exact absurd trivial h1

/-! ## dumb_disassemble -/

theorem noteBranch_defined {bytes : List UInt8} {f : StatusFlags} {i : Instruction} (hd : decode bytes f = .ok i)
    (jumps : OMap ExecutionState) (pc : Nat) (s : ExecutionState) : ∃ text m, noteBranch jumps pc i s = .ok (text, m) ∧
      (m = jumps ∨ ∃ t, m = jumps.set t s) := by
  unfold noteBranch
  split
  · next hb =>
    obtain ⟨v, hv⟩ := like_offset hd (like_self i) hb
    rw [hv, Res.bind_ok]
    exact ⟨_, _, rfl, .inr ⟨_, rfl⟩⟩
  · exact ⟨_, _, rfl, .inl rfl⟩

theorem mem_set {ν : Type} {m : OMap ν} {t : Nat} {v : ν} {p : Nat × ν} (h : p ∈ m.set t v) : p ∈ m ∨ p.2 = v := by
  unfold OMap.set at h
  induction m with
  | nil => simp only [OMap.upsert, List.mem_singleton] at h; right; rw [h]
  | cons x m ih =>
    obtain ⟨k, w⟩ := x
    simp only [OMap.upsert] at h
    split at h
    · rcases List.mem_cons.1 h with h | h
      · left; simp [h]
      · exact (ih h).imp_left fun h => by simp [h]
    · split at h
      · rcases List.mem_cons.1 h with h | h
        · right; rw [h]
        · left; simp [h]
      · rcases List.mem_cons.1 h with h | h
        · right; rw [h]
        · left; exact h

theorem dumbLoop_defined {Q : Prop} {msg : Err → Str} {rom : Rom} : ∀ (n : Nat) (a : Addr) (s : ExecutionState)
    (jumps : OMap ExecutionState), Fine Q s → (∀ p ∈ jumps, Fine Q p.2) →
    (dumbLoop msg rom n a s jumps).noUb ∨ (¬ Q ∧ ∃ a, PullAt rom.read a) := by
  intro n
  induction n with
  | zero => intro a s jumps _ _; left; trivial
  | succ n ih =>
    intro a s jumps hs hj
    by_cases hpull : ¬ Q ∧ ∃ a, PullAt rom.read a
    · exact .inr hpull
    left
    unfold dumbLoop
    simp only
    split
    · next u hu => have := rom_defined rom a; rw [hu] at this; exact this
    · trivial
    · next bytes hb =>
      split
      · next u hu => have := decode_noUb bytes s.flags; rw [hu] at this; exact this
      · trivial
      · next i hd =>
        split
        · next u hu =>
          rcases like_execute hd (like_self i) hs with h | ⟨h1, h2⟩
          · rw [hu] at h; exact h
          · exact absurd ⟨h1, a, bytes, _, i, hb, hd, h2⟩ hpull
        · trivial
        · next s' hx =>
          have hs' : Fine Q s' := fine_execute (fun f hf => by rw [(decode_ret hd).1] at hf; cases hf) hx hs
          obtain ⟨text, m, hnb, hm⟩ := noteBranch_defined hd jumps (Address.addWrapped a (instructionLength i.mode)) s'
          rw [hnb, Res.bind_ok]
          have hj' : ∀ p ∈ m, Fine Q p.2 := by
            rcases hm with rfl | ⟨t, rfl⟩
            · exact hj
            · exact fun p hp => (mem_set hp).elim (hj p) fun h => h ▸ hs'
          simp only
          split
          · split
            · trivial
            · next b t hlb =>
              split
              · trivial
              · refine Res.noUb_bind ((ih _ _ _ ?_ hj').resolve_right hpull) fun _ _ => trivial
                unfold lowerBound at hlb
                exact hj' _ (List.mem_of_find?_eq_some hlb)
          · exact Res.noUb_bind ((ih _ _ _ hs' hj').resolve_right hpull) fun _ _ => trivial

theorem dumbRom_defined {Q : Prop} {msg : Err → Str} {fuel : Nat} {rom : Rom} {start : Nat} {mode : Str}
    (hn : start ≤ 0x1000000) (hq : Q → ∀ f, StatusFlags.fromName mode = some f → GivesSizes f) :
    (dumbRom msg fuel rom start mode).noUb ∨ (¬ Q ∧ ∃ a, PullAt rom.read a) := by
  unfold dumbRom
  split
  · left; trivial
  · next f hf =>
    have hof : Address.ofInt (start : Int) = .ok start := by
      unfold Address.ofInt
      rw [if_pos ⟨by omega, by omega⟩]; simp
    rw [hof, Res.bind_ok]
    exact dumbLoop_defined fuel start _ [] (fine_init fun q => hq q f hf) (by simp)

/-- The simple disassembler does not crash either, unless the program pulls registers and the mode on the command line
leaves a size open. -/
theorem C71_dumb {msg : Err → Str} {fuel : Nat} {rom : Rom} {start : Nat} {mode : Str} {u : Ub}
    (h : dumbRom msg fuel rom start mode = .ub u) : 0x1000000 < start ∨
      ((∃ a, HasPull rom.read a) ∧ ∃ f, StatusFlags.fromName mode = some f ∧ ¬ GivesSizes f) := by
  by_contra hc
  rw [not_or] at hc
  by_cases hp : ∃ a, HasPull rom.read a
  · rcases dumbRom_defined (Q := True) (msg := msg) (fuel := fuel) (rom := rom) (start := start) (mode := mode) (by omega)
      (fun _ f hf => by by_contra hz; exact hc.2 ⟨hp, f, hf, hz⟩) with h1 | ⟨h1, -⟩
    · rw [h] at h1; exact h1
    · exact h1 trivial
  · rcases dumbRom_defined (Q := False) (msg := msg) (fuel := fuel) (rom := rom) (start := start) (mode := mode) (by omega)
      (fun h => h.elim) with h1 | ⟨-, a, h1⟩
    · rw [h] at h1; exact h1
    · exact hp ⟨a, hasPull_of h1⟩

/-! ## Examples -/

/-- A routine called with 8-bit and with 16-bit A; it pushes A and pulls it again. -/
def bothRom : Rom :=
  ⟨.loRom, [0x20, 0x09, 0x80, 0xc2, 0x20, 0x20, 0x09, 0x80, 0x60, 0x48, 0x68, 0x60, 0, 0, 0, 0]⟩

/-- A session of two calls that give the sizes; the program pulls A. -/
example : GivesSizes eightBit ∧ Constructible eightBit ∧
    (Disassembler.empty.disassemble 9 bothRom.read 0x8000 eightBit).2 = .ok [(0x8009, ⟨.off, .unknown, .on, .unknown⟩)] ∧
    ((Disassembler.empty.disassemble 9 bothRom.read 0x8000 eightBit).1.disassemble 9 bothRom.read 0x8009 eightBit).2 = .ok [] ∧
    HasPull bothRom.read 0x800a :=
  ⟨by unfold GivesSizes; decide, ⟨.off, .on, .on, .unknown, rfl⟩, by decide +kernel, by decide +kernel, 0x68, [0x60, 0, 0], by decide +kernel, .inl rfl⟩

/-- A call after `Cleanup`, which has folded CLC and ADC into one entry: it visits that entry again, now with a
less specific state, and ends with an error; the listing is then cleaned up once more. -/
def foldRom : Rom := ⟨.loRom, [0x18, 0x69, 0x01, 0x80, 0xfb, 0xc2, 0x20, 0x80, 0xf7, 0, 0, 0, 0, 0, 0, 0]⟩

/-- The listing after the first call. -/
def foldFirst : Disassembler := (Disassembler.empty.disassemble 9 foldRom.read 0x8000 eightBit).1

example : SizedHistory HasName foldRom.read (cleaned foldFirst) ∧
    ((cleaned foldFirst).disassembly.map fun p => p.2.instruction.mnemonic) = [.padd, .bra] ∧
    ((cleaned foldFirst).disassemble 9 foldRom.read 0x8005 eightBit).2.isOk = false ∧
    ∃ d, ((cleaned foldFirst).disassemble 9 foldRom.read 0x8005 eightBit).1.cleanup = .ok d :=
  ⟨.cleanup (.call (fuel := 9) (start := 0x8000) (d' := foldFirst) (r := .ok []) .new (by decide) ⟨.off, .on, .on, .unknown, rfl⟩ (by unfold GivesSizes; decide) (by decide +kernel) trivial)
    (cleaned_ok (by decide +kernel)), by decide +kernel, by decide +kernel, cleaned _, cleaned_ok (by decide +kernel)⟩

/-- The simple disassembler on the same routine, with the size of A given, and without. -/
example : (dumbRom (fun _ => []) 9 bothRom 0x8009 cs!"m8x8").isOk = true ∧
    dumbRom (fun _ => []) 9 bothRom 0x8009 cs!"x8" = .ub .assertFail ∧ ¬ GivesSizes (.make .off .unknown .on .unknown) :=
  ⟨by decide +kernel, by decide +kernel, by unfold GivesSizes; decide⟩

/-! ## Crashes -/

/-- **The tool crashes** on it, though the mode on the command line gives both sizes. -/
theorem C71_violated : disassembleRom (fun _ => []) 9 bothRom [⟨false, 0x8000, cs!"m8x8"⟩] = .ub .assertFail := by
  decide +kernel

end Nsasm.Props
