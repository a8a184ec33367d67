import Verif.Lemmas.Entries
import Verif.Props.FarTargets
import Verif.Spec.Tools

/-! # The loops of the disassembling tools -/

namespace Nsasm
open Spec Props Disassembler Tools

theorem normal_constructible {f : StatusFlags} (h : Normal f) : Constructible f :=
  ⟨f.e, f.m, f.x, f.c, by
    unfold Normal at h
    cases f
    simp only at h
    simp [StatusFlags.make, h.1, h.2]⟩

/-- All flags noted are normal and say nothing about the carry. -/
def FarNormal (m : OMap StatusFlags) : Prop := OMap.Sorted m ∧ ∀ x g, m.find x = some g → Normal g ∧ g.c = .unknown

theorem farNormal_upsert {m : OMap StatusFlags} (h : FarNormal m) {f : StatusFlags} (hf : Normal f ∧ f.c = .unknown) (t : Nat) :
    FarNormal (m.upsert (fun old => old.merge f) t f) := by
  refine ⟨OMap.sorted_upsert h.1 _ _, fun x g hg => ?_⟩
  rw [OMap.find_upsert h.1] at hg
  by_cases hx : t = x
  · rw [if_pos hx] at hg
    cases hm : m.find t with
    | none => rw [hm] at hg; cases hg; exact hf
    | some old =>
      rw [hm] at hg; cases hg
      refine ⟨normal_make _ _ _ _, ?_⟩
      have := (h.2 t old hm).2
      simp only [StatusFlags.merge, StatusFlags.make, this, hf.2]
      rfl
  · rw [if_neg hx] at hg
    exact h.2 x g hg

theorem farNormal_step {src : Source} {d : Disassembler} {w w' : Work} (ht : Tidy d w) (hf : FarNormal w.far)
    (h : step src d w = .ok (some w')) : FarNormal w'.far := by
  obtain ⟨pc, s, rest, it, outs, hst, hr, -⟩ := step_round ht.fresh h
  have hsn : NormalState s := ht.states.2 pc s (by rw [hst]; simp [OMap.find])
  cases hr with
  | skip seen same far labels sym => rw [far]; exact hf
  | first unseen read decoded executed visit =>
    rename_i bytes i0 nx0
    have hd := decode_ret decoded
    have hnx0 : NormalState nx0 := normal_execute (fun f hf => by rw [hd.1] at hf; cases hf) executed hsn
    cases visit with
    | branch isBranch value target named taken =>
      simp only [Disassembler.push]
      have : ∀ w : Work, ∀ a, (getLabel d w a).2.far = w.far := by
        intro w a
        unfold getLabel
        split <;> first | rfl | (split <;> first | rfl | (split <;> rfl))
      simpa [this] using hf
    | plain noBranch noTarget => exact hf
    | far noBranch target convention looked =>
      rename_i t i
      exact farNormal_upsert hf ⟨hnx0.1, by rw [execute_jump (far_mnemonic target) executed]; rfl⟩ t
  | again seen change read decoded executed far branch labels sym =>
    rename_i di bytes i0 nx bo
    have hret : ∀ f, di.instruction.ret = .yields f → Normal f := fun f hf => ht.rets pc di f seen hf
    rcases far with ⟨hn, hw⟩ | ⟨t, hn, hw⟩
    · rw [hw]; exact hf
    · rw [hw]
      exact farNormal_upsert hf ⟨(normal_execute hret executed (normal_merge hsn)).1,
        by rw [execute_jump (far_mnemonic hn) executed]; rfl⟩ t

/-- The addresses and flags that a disassembling tool goes on with. -/
def Seeds (m : OMap StatusFlags) : Prop :=
  OMap.Sorted m ∧ ∀ a f, m.find a = some f → a ≤ 0x1000000 ∧ Constructible f ∧ f.c = .unknown

theorem report_seeds {src : Source} {d d' : Disassembler} (h : Session HasName src d) {fuel start : Nat}
    (hs : start ≤ 0x1000000) {flags : StatusFlags} (hf : Constructible flags) {T : OMap StatusFlags}
    (hr : d.disassemble fuel src start flags = (d', .ok T)) : Seeds T := by
  have hfn : FarNormal T := by
    have hc := session_closed h
    have hr' := hr
    unfold disassemble at hr'
    simp only at hr'
    split at hr'
    case h_2 => cases hr'
    case h_3 => cases hr'
    case h_1 w hrun =>
      cases hr'
      obtain ⟨-, -, b3⟩ := begin_shape d start flags
      have ht := begin_tidy hc.proper hs (constructible_normal hf)
      have h0 : FarNormal (begin d start flags).far := by
        rw [b3]; exact ⟨List.Pairwise.nil, fun x g hg => by cases hg⟩
      exact (run_invariant (src := src) (d := d) (I := fun w => Tidy d w ∧ FarNormal w.far)
        (fun w w' hw h => ⟨(tidy_step hw.1 h).1, farNormal_step hw.1 hw.2 h⟩) fuel
        (begin d start flags) w _ ⟨ht, h0⟩ hrun).1.2
  refine ⟨hfn.1, fun a f ha => ⟨?_, normal_constructible (hfn.2 a f ha).1, (hfn.2 a f ha).2⟩⟩
  obtain ⟨x, it, -, hj⟩ := C53_only_targets h hs hf hr ha
  cases hj with
  | long mode jump value bound => exact bound
  | near mode jump value bound target =>
    have : x / 0x10000 % 0x100 < 0x100 := Nat.mod_lt _ (by omega)
    omega

/-- What `m` knows, `m'` knows at least as generally. -/
def Extends (m m' : OMap StatusFlags) : Prop :=
  ∀ x g, m.find x = some g → ∃ g', m'.find x = some g' ∧ FlagsBelow g g'

theorem Extends.refl (m : OMap StatusFlags) : Extends m m := fun _ g h => ⟨g, h, .refl _⟩

theorem Extends.trans {a b c : OMap StatusFlags} (h : Extends a b) (h' : Extends b c) : Extends a c := by
  intro x g hg
  obtain ⟨g1, h1, h2⟩ := h x g hg
  obtain ⟨g2, h3, h4⟩ := h' x g1 h1
  exact ⟨g2, h3, h2.trans h4⟩

theorem combineStates_spec : ∀ (l : List (Nat × StatusFlags)) {m : OMap StatusFlags}, Seeds m →
    (∀ a f, (a, f) ∈ l → a ≤ 0x1000000 ∧ Constructible f ∧ f.c = .unknown) →
    Seeds (combineStates m l) ∧ Extends m (combineStates m l) ∧
      ∀ a f, (a, f) ∈ l → ∃ g, (combineStates m l).find a = some g ∧ FlagsBelow f g := by
  intro l
  induction l with
  | nil => intro m hm _; exact ⟨hm, .refl m, by simp⟩
  | cons p l ih =>
    obtain ⟨a, f⟩ := p
    intro m hm hl
    obtain ⟨ha, hf, hcy⟩ := hl a f (by simp)
    obtain ⟨g1, g2, g3, g4⟩ := far_grows hm.1 a f
    have hfn := farNormal_upsert (m := m) ⟨hm.1, fun x g h => ⟨constructible_normal (hm.2 x g h).2.1, (hm.2 x g h).2.2⟩⟩
      ⟨constructible_normal hf, hcy⟩ a
    have hm' : Seeds (m.upsert (fun old => old.merge f) a f) := by
      refine ⟨g1, fun x g hx => ⟨?_, normal_constructible (hfn.2 x g hx).1, (hfn.2 x g hx).2⟩⟩
      rcases g4 x g hx with rfl | ⟨g', hg'⟩
      · exact ha
      · exact (hm.2 x g' hg').1
    obtain ⟨i1, i2, i3⟩ := ih hm' (fun b g h => hl b g (by simp [h]))
    refine ⟨i1, Extends.trans g2 i2, fun b g hb => ?_⟩
    rcases List.mem_cons.mp hb with hb | hb
    · cases hb
      obtain ⟨k, h1, h2⟩ := g3
      obtain ⟨k', h3, h4⟩ := i2 _ k h1
      exact ⟨k', h3, h2.trans h4⟩
    · exact i3 b g hb

/-- Each successive history extends the earlier one. -/
theorem later_trans {P : StatusFlags → Prop} {src : Source} {a b c : Disassembler} (h : Later P src a b) (h' : Later P src b c) :
    Later P src a c := by
  induction h' with
  | now => exact h
  | table _ sorted ok ih => exact .table ih sorted ok
  | call _ address ok result ended ih => exact .call ih address ok result ended

theorem known_anything {f : StatusFlags} {p : Cpu} : KnownFlagsRight f p ↔ FlagsDescribe .anything f p := by
  obtain ⟨e, m, x, c⟩ := f
  unfold KnownFlagsRight FlagsDescribe Meaning.anything
  cases e <;> cases m <;> cases x <;> cases c <;> simp [BitIs, BitKnown]

theorem known_below {f g : StatusFlags} (h : FlagsBelow f g) {p : Cpu} (hp : p.Ok) (hk : KnownFlagsRight f p) :
    KnownFlagsRight g p := known_anything.mpr (h .anything p hp (known_anything.mp hk))

/-- Whatever gets to a start in a state that the flags allow is described, `original` meaning its own state. -/
theorem init_asIn {f : StatusFlags} {p : Cpu} (hp : p.Ok) (hk : KnownFlagsRight f p) : Describes (.asIn p) (.init f) p := by
  refine ⟨hp, ?_, trivial⟩
  obtain ⟨e, m, x, c⟩ := f
  unfold KnownFlagsRight at hk
  unfold FlagsDescribe Meaning.asIn ExecutionState.init StatusFlags.setIncoming
  cases e <;> cases m <;> cases x <;> cases c <;> simp_all [BitIs, BitKnown, StatusFlags.incomingBit]

theorem handled_mono {msg : Err → Str} {src : Source} {d d' : Disassembler} (hs : Session HasName src d)
    (hl : Later HasName src d d') {ls ls' : List Str} (hi : ls <:+: ls') {a : Addr} {f : StatusFlags}
    (h : Handled msg d.disassembly ls a f) : Handled msg d'.disassembly ls' a f := by
  cases h with
  | listed it here covers =>
    obtain ⟨it', h1, h2⟩ := C49_kept hs hl here
    exact .listed it' h1 fun p hp hk => h2 _ p (covers p hp hk)
  | failed g e lines general => exact .failed g e (lines.trans hi) general

theorem handled_below {msg : Err → Str} {m : OMap DisItem} {ls : List Str} {a : Addr} {f g : StatusFlags}
    (h : Handled msg m ls a g) (hfg : FlagsBelow f g) : Handled msg m ls a f := by
  cases h with
  | listed it here covers => exact .listed it here fun p hp hk => covers p hp (known_below hfg hp hk)
  | failed k e lines general => exact .failed k e lines fun p hp hk => general p hp (known_below hfg hp hk)

/-- What a pass over seeds, or a number of passes, has done.  `new` is what is left to do. -/
structure Did (msg : Err → Str) (src : Source) (d : Disassembler) (log : List (OMap StatusFlags)) (d' : Disassembler)
    (new : OMap StatusFlags) (ls : List Str) : Prop where
  later : Later HasName src d d'
  seeds : Seeds new
  reported : ∃ log', Reported HasName src d' (log' ++ log) ∧ ∀ T ∈ log', ∀ t f, T.find t = some f →
    Handled msg d'.disassembly ls t f ∨ ∃ g, new.find t = some g ∧ FlagsBelow f g
  comments : ∀ l ∈ ls, l.head? = some ';'
  clean : ls = [] → Explored src d → Explored src d'

theorem errorLines_comments (msg : Err → Str) (a : Addr) (f : StatusFlags) (e : Err) :
    ∀ l ∈ errorLines msg a f e, l.head? = some ';' := by
  intro l hl
  simp only [errorLines, List.mem_cons, List.not_mem_nil, or_false] at hl
  rcases hl with rfl | rfl <;> rfl

theorem pass_did {msg : Err → Str} {fuel : Nat} {src : Source} {known : Addr → Bool} :
    ∀ (l : List (Nat × StatusFlags)) {d : Disassembler} {log : List (OMap StatusFlags)} {new : OMap StatusFlags}
      {d' : Disassembler} {new' : OMap StatusFlags} {ls : List Str}, Reported HasName src d log → Seeds new →
      (∀ a f, (a, f) ∈ l → a ≤ 0x1000000 ∧ Constructible f ∧ f.c = .unknown) →
      pass msg fuel src known l d new = .ok (d', new', ls) →
      Did msg src d log d' new' ls ∧ Extends new new' ∧
        ∀ a f, (a, f) ∈ l → known a = false → Handled msg d'.disassembly ls a f := by
  intro l
  induction l with
  | nil =>
    intro d log new d' new' ls hr hn _ h
    simp only [pass, Res.ok.injEq, Prod.mk.injEq] at h
    obtain ⟨rfl, rfl, rfl⟩ := h
    exact ⟨⟨.now, hn, ⟨[], hr, by simp⟩, by simp, fun _ h => h⟩, .refl _, by simp⟩
  | cons p l ih =>
    obtain ⟨a, f⟩ := p
    intro d log new d' new' ls hr hn hl h
    obtain ⟨ha, hf, hcy⟩ := hl a f (by simp)
    have hl' : ∀ b g, (b, g) ∈ l → b ≤ 0x1000000 ∧ Constructible g ∧ g.c = .unknown := fun b g hb => hl b g (by simp [hb])
    unfold pass at h
    split at h
    · next hk =>
      obtain ⟨i1, i2, i3⟩ := ih hr hn hl' h
      refine ⟨i1, i2, fun b g hb hkb => ?_⟩
      rcases List.mem_cons.mp hb with hb | hb
      · cases hb; rw [hk] at hkb; cases hkb
      · exact i3 b g hb hkb
    · split at h
      · cases h
      · next d₁ far hcall =>
        have hs := reported_session hr
        have hfar := report_seeds hs ha hf hcall
        have hr₁ : Reported HasName src d₁ (far :: log) := .call hr ha hf hcall
        obtain ⟨c1, c2, c3⟩ := combineStates_spec far hn (fun b g hb => hfar.2 b g (OMap.find_of_mem hfar.1 hb))
        obtain ⟨⟨j1, j2, ⟨log', j3, j4⟩, j5, j6⟩, i2, i3⟩ := ih hr₁ c1 hl' h
        refine ⟨⟨later_trans (.call .now ha hf hcall trivial) j1, j2, ⟨log' ++ [far], ?_, ?_⟩, j5,
          fun hls hx => j6 hls (.call hx ha hf hcy hcall)⟩, c2.trans i2, ?_⟩
        · simpa using j3
        · intro T hT t g hg
          rcases List.mem_append.mp hT with hT | hT
          · exact j4 T hT t g hg
          · rw [List.mem_singleton] at hT
            subst hT
            obtain ⟨k, k1, k2⟩ := c3 t g (OMap.mem_of_find hg)
            obtain ⟨k', k3, k4⟩ := i2 t k k1
            exact .inr ⟨k', k3, k2.trans k4⟩
        · intro b g hb hkb
          rcases List.mem_cons.mp hb with hb | hb
          · cases hb
            obtain ⟨it, h1, h2⟩ := C49_start_listed hs ha hf hcall
            exact handled_mono (reported_session hr₁) j1 (List.infix_refl _)
              (.listed (msg := msg) (printed := ls) it h1 fun p hp hk => h2 _ p (init_asIn hp hk))
          · exact i3 b g hb hkb
      · next d₁ e hcall =>
        split at h
        · cases h
        · next he =>
          obtain ⟨⟨d₂, new₂, ls₂⟩, hrest, h⟩ := Res.bind_eq_ok.mp h
          simp only [Res.ok.injEq, Prod.mk.injEq] at h
          obtain ⟨rfl, rfl, rfl⟩ := h
          have hr₁ : Reported HasName src d₁ log := .failed hr ha hf hcall he
          obtain ⟨⟨j1, j2, ⟨log', j3, j4⟩, j5, -⟩, i2, i3⟩ := ih hr₁ hn hl' hrest
          have hin : ls₂ <:+: errorLines msg a f e ++ ls₂ := (List.suffix_append _ _).isInfix
          have hs₂ := reported_session j3
          refine ⟨⟨later_trans (.call .now ha hf hcall he) j1, j2, ⟨log', j3, ?_⟩, ?_, ?_⟩, i2, ?_⟩
          · intro T hT t g hg
            exact (j4 T hT t g hg).imp_left (handled_mono hs₂ .now hin)
          · intro x hx
            rcases List.mem_append.mp hx with hx | hx
            · exact errorLines_comments _ _ _ _ x hx
            · exact j5 x hx
          · intro hls
            simp [errorLines] at hls
          · intro b g hb hkb
            rcases List.mem_cons.mp hb with hb | hb
            · cases hb
              exact .failed f e (List.prefix_append _ _).isInfix fun p _ h => h
            · exact handled_mono hs₂ .now hin (i3 b g hb hkb)

theorem passes_did {msg : Err → Str} {fuel : Nat} {src : Source} :
    ∀ (n : Nat) {d : Disassembler} {log : List (OMap StatusFlags)} {seeds : OMap StatusFlags}
      {d' : Disassembler} {left : OMap StatusFlags} {ls : List Str}, Reported HasName src d log → Seeds seeds →
      passes msg fuel src (fun _ => false) n d seeds = .ok (d', left, ls) →
      Did msg src d log d' left ls ∧
        ∀ a f, seeds.find a = some f → Handled msg d'.disassembly ls a f ∨ ∃ g, left.find a = some g ∧ FlagsBelow f g := by
  intro n
  induction n with
  | zero =>
    intro d log seeds d' left ls hr hs h
    simp only [passes, Res.ok.injEq, Prod.mk.injEq] at h
    obtain ⟨rfl, rfl, rfl⟩ := h
    exact ⟨⟨.now, hs, ⟨[], hr, by simp⟩, by simp, fun _ h => h⟩, fun a f ha => .inr ⟨f, ha, .refl _⟩⟩
  | succ n ih =>
    intro d log seeds d' left ls hr hs h
    unfold passes at h
    obtain ⟨⟨d₁, new, ls₁⟩, hpass, h⟩ := Res.bind_eq_ok.mp h
    obtain ⟨⟨d₂, left₂, ls₂⟩, hrest, h⟩ := Res.bind_eq_ok.mp h
    simp only [Res.ok.injEq, Prod.mk.injEq] at h
    obtain ⟨rfl, rfl, rfl⟩ := h
    have hempty : Seeds [] := ⟨List.Pairwise.nil, fun a f h => by cases h⟩
    obtain ⟨⟨j1, j2, ⟨log₁, j3, j4⟩, j5, j6⟩, -, i3⟩ := pass_did seeds hr hempty
      (fun a f ha => hs.2 a f (OMap.find_of_mem hs.1 ha)) hpass
    obtain ⟨⟨k1, k2, ⟨log₂, k3, k4⟩, k5, k6⟩, l2⟩ := ih j3 j2 hrest
    have hin₁ : ls₁ <:+: ls₁ ++ ls₂ := (List.prefix_append _ _).isInfix
    have hin₂ : ls₂ <:+: ls₁ ++ ls₂ := (List.suffix_append _ _).isInfix
    have hs₁ := reported_session j3
    have hs₂ := reported_session k3
    refine ⟨⟨later_trans j1 k1, k2, ⟨log₂ ++ log₁, by simpa using k3, ?_⟩, ?_, ?_⟩, ?_⟩
    · intro T hT t f hf
      rcases List.mem_append.mp hT with hT | hT
      · exact (k4 T hT t f hf).imp_left (handled_mono hs₂ .now hin₂)
      · rcases j4 T hT t f hf with hh | ⟨g, h1, h2⟩
        · exact .inl (handled_mono hs₁ k1 hin₁ hh)
        · rcases l2 t g h1 with hh | ⟨g', h3, h4⟩
          · exact .inl (handled_below (handled_mono hs₂ .now hin₂ hh) h2)
          · exact .inr ⟨g', h3, h2.trans h4⟩
    · intro x hx
      rcases List.mem_append.mp hx with hx | hx
      · exact j5 x hx
      · exact k5 x hx
    · intro hls hx
      obtain ⟨e1, e2⟩ := List.append_eq_nil_iff.mp hls
      exact k6 e2 (j6 e1 hx)
    · intro a f ha
      exact .inl (handled_mono hs₁ k1 hin₁ (i3 a f (OMap.mem_of_find ha) rfl))

/-! ## Reading the arguments -/

theorem asksFor_of_readSeed {msg : Err → Str} {rom : Rom} {arg : SeedArg} {a : Addr} {f : StatusFlags}
    (h : readSeed msg rom arg = .ok (.ok (a, f))) : AsksFor rom arg a f ∧ a ≤ 0x1000000 := by
  have hof : ∀ {v : Int} {a : Addr}, Address.ofInt v = .ok a → v = (a : Int) ∧ a ≤ 0x1000000 := by
    intro v a h
    unfold Address.ofInt at h
    split at h
    · next hb => cases h; exact ⟨by omega, by omega⟩
    · cases h
  unfold readSeed at h
  split at h
  · cases h
  · next g hg =>
    obtain ⟨n, hn, h⟩ := Res.bind_eq_ok.mp h
    obtain ⟨hn1, hn2⟩ := hof hn
    have hn1 : arg.number = n := by exact_mod_cast hn1
    split at h
    · next hi =>
      split at h
      · cases h
      · cases h
      · next v hv =>
        obtain ⟨b, hb, h⟩ := Res.bind_eq_ok.mp h
        simp only [Res.ok.injEq, Except.ok.injEq, Prod.mk.injEq] at h
        obtain ⟨rfl, rfl⟩ := h
        obtain ⟨hb1, hb2⟩ := hof hb
        refine ⟨⟨hg, ?_⟩, hb2⟩
        rw [if_pos hi, hn1, hv, hb1]
    · next hi =>
      simp only [Res.ok.injEq, Except.ok.injEq, Prod.mk.injEq] at h
      obtain ⟨rfl, rfl⟩ := h
      refine ⟨⟨hg, ?_⟩, hn2⟩
      rw [if_neg hi, hn1]

theorem asksFor_unique {rom : Rom} {arg : SeedArg} {a b : Addr} {f g : StatusFlags} (h : AsksFor rom arg a f)
    (h' : AsksFor rom arg b g) : a = b ∧ f = g := by
  obtain ⟨h1, h2⟩ := h
  obtain ⟨h3, h4⟩ := h'
  rw [h1] at h3
  cases h3
  refine ⟨?_, rfl⟩
  by_cases hi : arg.indirect
  · rw [if_pos hi] at h2 h4
    rw [h2] at h4
    exact_mod_cast Res.ok.inj h4
  · rw [if_neg hi] at h2 h4
    rw [h2, h4]

/-- What the arguments come to: the flags of an address are those of the first argument that asks for it. -/
theorem readSeeds_spec {msg : Err → Str} {rom : Rom} : ∀ (args : List SeedArg) {m seeds : OMap StatusFlags}, Seeds m →
    readSeeds msg rom m args = .ok (.ok seeds) →
    Seeds seeds ∧ (∀ a f, m.find a = some f → seeds.find a = some f) ∧
    (∀ arg ∈ args, ∃ a f g, AsksFor rom arg a f ∧ seeds.find a = some g) ∧
    (∀ a f, seeds.find a = some f → m.find a = some f ∨ ∃ arg ∈ args, AsksFor rom arg a f) := by
  intro args
  induction args with
  | nil =>
    intro m seeds hm h
    simp only [readSeeds, Res.ok.injEq, Except.ok.injEq] at h
    subst h
    exact ⟨hm, fun _ _ h => h, by simp, fun _ _ h => .inl h⟩
  | cons arg rest ih =>
    intro m seeds hm h
    unfold readSeeds at h
    obtain ⟨x, hx, h⟩ := Res.bind_eq_ok.mp h
    cases x with
    | error line => simp at h
    | ok p =>
      obtain ⟨a, f⟩ := p
      simp only at h
      obtain ⟨hask, hlow⟩ := asksFor_of_readSeed hx
      have hfind : ∀ x, (m.insertKeep a f).find x = if a = x then some ((m.find a).getD f) else m.find x := by
        intro x
        unfold OMap.insertKeep
        rw [OMap.find_upsert hm.1]
        by_cases hx : a = x
        · rw [if_pos hx, if_pos hx]
          cases m.find a <;> rfl
        · rw [if_neg hx, if_neg hx]
      have hm' : Seeds (m.insertKeep a f) := by
        refine ⟨OMap.sorted_upsert hm.1 _ _, fun x g hg => ?_⟩
        rw [hfind] at hg
        by_cases hx : a = x
        · rw [if_pos hx] at hg
          subst hx
          cases hma : m.find a with
          | none => rw [hma] at hg; cases hg; exact ⟨hlow, written_constructible ⟨_, hask.1⟩, named_carry ⟨_, hask.1⟩⟩
          | some g' => rw [hma] at hg; cases hg; exact hm.2 a _ hma
        · rw [if_neg hx] at hg; exact hm.2 x g hg
      obtain ⟨i1, i2, i3, i4⟩ := ih hm' h
      refine ⟨i1, fun x g hx => i2 x g ?_, ?_, fun x g hx => ?_⟩
      · rw [hfind]
        by_cases hax : a = x
        · subst hax; rw [if_pos rfl, hx]; rfl
        · rw [if_neg hax]; exact hx
      · intro arg' harg
        rcases List.mem_cons.mp harg with rfl | harg
        · exact ⟨a, f, _, hask, i2 a _ (by rw [hfind, if_pos rfl])⟩
        · exact i3 arg' harg
      · rcases i4 x g hx with hh | ⟨arg', h1, h2⟩
        · rw [hfind] at hh
          by_cases hax : a = x
          · rw [if_pos hax] at hh
            subst hax
            cases hma : m.find a with
            | none => rw [hma] at hh; cases hh; exact .inr ⟨arg, by simp, hask⟩
            | some g' => rw [hma] at hh; cases hh; exact .inl rfl
          · rw [if_neg hax] at hh; exact .inl hh
        · exact .inr ⟨arg', by simp [h1], h2⟩

/-! ## No conventions -/

/-- A disassembler that no conventions were given: all calls are taken to return. -/
def NoConventions (d : Disassembler) : Prop :=
  d.conventions = [] ∧ ∀ a it, d.disassembly.find a = some it → it.instruction.ret = .default

theorem noConventions_step {src : Source} {d : Disassembler} {w w' : Work} (hd : d.conventions = []) (ht : Tidy d w)
    (hi : ∀ a it, look d w.fresh a = some it → it.instruction.ret = .default) (h : step src d w = .ok (some w')) :
    ∀ a it, look d w'.fresh a = some it → it.instruction.ret = .default := by
  obtain ⟨pc, s, rest, it, outs, hst, hr, he⟩ := step_round ht.fresh h
  have hit : it.instruction.ret = .default := by
    cases hr with
    | skip seen same far labels sym => exact hi pc it seen
    | first unseen read decoded executed visit =>
      obtain ⟨-, -, -, -, -, -, -, hi8, -⟩ := first_item visit
      rcases hi8 with h | ⟨t, h⟩
      · rw [h, (decode_ret decoded).1]
      · rw [hd] at h; cases h
    | again seen change read decoded executed far branch labels sym =>
      have := hi pc _ seen
      exact this
  intro a jt ha
  rw [he.look] at ha
  by_cases hx : pc = a
  · rw [if_pos hx] at ha; cases ha; exact hit
  · rw [if_neg hx] at ha; exact hi a jt ha

theorem noConventions_call {src : Source} {d d' : Disassembler} (hc : Closed src d) (hn : NoConventions d) {fuel start : Nat}
    (hs : start ≤ 0x1000000) {flags : StatusFlags} (hf : Normal flags) {r : Res (OMap StatusFlags)}
    (hr : d.disassemble fuel src start flags = (d', r)) : NoConventions d' := by
  unfold disassemble at hr
  simp only at hr
  split at hr
  case h_2 => cases hr; exact hn
  case h_3 => cases hr; exact hn
  case h_1 w hrun =>
    cases hr
    refine ⟨hn.1, ?_⟩
    obtain ⟨l1, l2, -, l4⟩ := loop_flow hc hs hf hrun
    obtain ⟨b1, -, -⟩ := begin_shape d start flags
    have hb := begin_flow hc hs hf
    obtain ⟨⟨-, i2⟩, -⟩ := run_invariant (src := src) (d := d)
      (I := fun w => Flow src d w ∧ ∀ a it, look d w.fresh a = some it → it.instruction.ret = .default)
      (fun w w' hw h => ⟨flow_step hw.1 h, noConventions_step hn.1 hw.1.tidy hw.2 h⟩) fuel
      (begin d start flags) w _ ⟨hb.1, fun a it hl => by rw [b1] at hl; exact hn.2 a it hl⟩ hrun
    obtain ⟨f1, -⟩ := finish_look hc.proper.sorted l1.tidy l2 (l4 rfl)
    intro a jt ha
    obtain ⟨it, h1, ⟨s, l, -, h3⟩, -⟩ := f1 a jt ha
    rw [h3]
    exact i2 a it h1

theorem noConventions_pass {msg : Err → Str} {fuel : Nat} {src : Source} {known : Addr → Bool} :
    ∀ (l : List (Nat × StatusFlags)) {d : Disassembler} {log : List (OMap StatusFlags)} {new : OMap StatusFlags}
      {d' : Disassembler} {new' : OMap StatusFlags} {ls : List Str}, Reported HasName src d log → NoConventions d →
      (∀ a f, (a, f) ∈ l → a ≤ 0x1000000 ∧ Constructible f ∧ f.c = .unknown) →
      pass msg fuel src known l d new = .ok (d', new', ls) → NoConventions d' := by
  intro l
  induction l with
  | nil =>
    intro d log new d' new' ls _ hn _ h
    simp only [pass, Res.ok.injEq, Prod.mk.injEq] at h
    exact h.1 ▸ hn
  | cons p l ih =>
    obtain ⟨a, f⟩ := p
    intro d log new d' new' ls hr hn hl h
    obtain ⟨ha, hf, hcy⟩ := hl a f (by simp)
    have hl' : ∀ b g, (b, g) ∈ l → b ≤ 0x1000000 ∧ Constructible g ∧ g.c = .unknown := fun b g hb => hl b g (by simp [hb])
    have hc := session_closed (reported_session hr)
    unfold pass at h
    split at h
    · exact ih hr hn hl' h
    · split at h
      · cases h
      · next d₁ far hcall =>
        exact ih (.call hr ha hf hcall) (noConventions_call hc hn ha (constructible_normal hf) hcall) hl' h
      · next d₁ e hcall =>
        split at h
        · cases h
        · next he =>
          obtain ⟨⟨d₂, new₂, ls₂⟩, hrest, h⟩ := Res.bind_eq_ok.mp h
          simp only [Res.ok.injEq, Prod.mk.injEq] at h
          exact h.1 ▸ ih (.failed hr ha hf hcall he) (noConventions_call hc hn ha (constructible_normal hf) hcall) hl' hrest

theorem noConventions_passes {msg : Err → Str} {fuel : Nat} {src : Source} :
    ∀ (n : Nat) {d : Disassembler} {log : List (OMap StatusFlags)} {seeds : OMap StatusFlags}
      {d' : Disassembler} {left : OMap StatusFlags} {ls : List Str}, Reported HasName src d log → Seeds seeds →
      NoConventions d → passes msg fuel src (fun _ => false) n d seeds = .ok (d', left, ls) → NoConventions d' := by
  intro n
  induction n with
  | zero =>
    intro d log seeds d' left ls _ _ hn h
    simp only [passes, Res.ok.injEq, Prod.mk.injEq] at h
    exact h.1 ▸ hn
  | succ n ih =>
    intro d log seeds d' left ls hr hs hn h
    unfold passes at h
    obtain ⟨⟨d₁, new, ls₁⟩, hpass, h⟩ := Res.bind_eq_ok.mp h
    obtain ⟨⟨d₂, left₂, ls₂⟩, hrest, h⟩ := Res.bind_eq_ok.mp h
    simp only [Res.ok.injEq, Prod.mk.injEq] at h
    have hl : ∀ a f, (a, f) ∈ seeds → a ≤ 0x1000000 ∧ Constructible f ∧ f.c = .unknown := fun a f ha => hs.2 a f (OMap.find_of_mem hs.1 ha)
    obtain ⟨⟨-, j2, ⟨log₁, j3, -⟩, -, -⟩, -, -⟩ := pass_did seeds hr ⟨List.Pairwise.nil, fun a f h => by cases h⟩ hl hpass
    exact h.1 ▸ ih j3 j2 (noConventions_pass seeds hr hn hl hpass) hrest

/-! ## Termination -/

theorem session_any {src : Source} {d : Disassembler} (h : Session HasName src d) : History Constructible src d := by
  induction h with
  | new => exact .new
  | table before sorted ok ih => exact .table ih sorted fun a f h => written_constructible (ok a f h)
  | call before address ok result ended ih => exact .call ih address ok result ended

/-- A computation whose outcome does not depend on the step bound, once that is large enough. -/
def ComesToEnd {α : Type} (f : Nat → Res α) : Prop := ∃ N r, r ≠ .err .steps ∧ ∀ fuel ≥ N, f fuel = r

theorem ComesToEnd.const {α : Type} {r : Res α} (h : r ≠ .err .steps) : ComesToEnd fun _ => r := ⟨0, r, h, fun _ _ => rfl⟩

theorem ComesToEnd.bind {α β : Type} {f : Nat → Res α} {g : Nat → α → Res β} (h : ComesToEnd f)
    (h' : ∀ N x, (∀ fuel ≥ N, f fuel = .ok x) → ComesToEnd fun fuel => g fuel x) : ComesToEnd fun fuel => f fuel >>= g fuel := by
  obtain ⟨N, r, hr, hN⟩ := h
  cases r with
  | ub u => exact ⟨N, .ub u, by simp, fun fuel hf => by simp only [hN fuel hf]; rfl⟩
  | err e => exact ⟨N, .err e, by simpa using hr, fun fuel hf => by simp only [hN fuel hf]; rfl⟩
  | ok x =>
    obtain ⟨N', r', hr', hN'⟩ := h' N x hN
    exact ⟨max N N', r', hr', fun fuel hf => by
      simp only [hN fuel (by omega), Res.bind_ok]; exact hN' fuel (by omega)⟩

theorem pass_halts {msg : Err → Str} {src : Source} (hsrc : ∀ a n, src a n ≠ .err .steps) {known : Addr → Bool} :
    ∀ (l : List (Nat × StatusFlags)) {d : Disassembler} {log : List (OMap StatusFlags)} {new : OMap StatusFlags},
      Reported HasName src d log → (∀ a f, (a, f) ∈ l → a ≤ 0x1000000 ∧ Constructible f ∧ f.c = .unknown) →
      ComesToEnd fun fuel => pass msg fuel src known l d new := by
  intro l
  induction l with
  | nil => intro d log new _ _; exact .const (by simp)
  | cons p l ih =>
    obtain ⟨a, f⟩ := p
    intro d log new hr hl
    obtain ⟨ha, hf, hcy⟩ := hl a f (by simp)
    have hl' : ∀ b g, (b, g) ∈ l → b ≤ 0x1000000 ∧ Constructible g ∧ g.c = .unknown := fun b g hb => hl b g (by simp [hb])
    by_cases hk : known a = true
    · have e : (fun fuel => pass msg fuel src known ((a, f) :: l) d new) = fun fuel => pass msg fuel src known l d new := by
        funext fuel; conv => lhs; unfold pass
        rw [if_pos hk]
      rw [e]
      exact ih hr hl'
    · obtain ⟨N, d₁, r, hrs, hN⟩ := C48_terminates hsrc (session_any (reported_session hr)) ha hf
      cases r with
      | ub u =>
        refine ⟨N, .ub u, by simp, fun fuel hfu => ?_⟩
        simp only
        unfold pass
        rw [if_neg hk, hN fuel hfu]
      | ok far =>
        obtain ⟨N', r', hr', hN'⟩ := ih (new := combineStates new far) (.call hr ha hf (hN N (Nat.le_refl N))) hl'
        refine ⟨max N N', r', hr', fun fuel hfu => ?_⟩
        simp only
        unfold pass
        rw [if_neg hk, hN fuel (by omega)]
        exact hN' fuel (by omega)
      | err e =>
        have he : e ≠ .steps := fun h => hrs (by rw [h])
        obtain ⟨N', r', hr', hN'⟩ := (ih (new := new) (.failed hr ha hf (hN N (Nat.le_refl N)) he) hl').bind
          (g := fun _ x => .ok (x.1, x.2.1, errorLines msg a f e ++ x.2.2)) fun _ _ _ => .const (by simp)
        refine ⟨max N N', r', hr', fun fuel hfu => ?_⟩
        simp only
        unfold pass
        rw [if_neg hk, hN fuel (by omega)]
        simp only [if_neg he]
        exact hN' fuel (by omega)

theorem passes_halts {msg : Err → Str} {src : Source} (hsrc : ∀ a n, src a n ≠ .err .steps) :
    ∀ (n : Nat) {d : Disassembler} {log : List (OMap StatusFlags)} {seeds : OMap StatusFlags},
      Reported HasName src d log → Seeds seeds → ComesToEnd fun fuel => passes msg fuel src (fun _ => false) n d seeds := by
  intro n
  induction n with
  | zero => intro d log seeds _ _; exact .const (by simp)
  | succ n ih =>
    intro d log seeds hr hs
    have hl : ∀ a f, (a, f) ∈ seeds → a ≤ 0x1000000 ∧ Constructible f ∧ f.c = .unknown :=
      fun a f ha => hs.2 a f (OMap.find_of_mem hs.1 ha)
    refine (pass_halts hsrc seeds hr hl).bind (g := fun fuel x => _) fun N x hx => ?_
    obtain ⟨d₁, new, ls⟩ := x
    obtain ⟨⟨-, j2, ⟨log₁, j3, -⟩, -, -⟩, -, -⟩ :=
      pass_did seeds hr ⟨List.Pairwise.nil, fun a f h => by cases h⟩ hl (hx N (Nat.le_refl N))
    exact (ih j3 j2).bind (g := fun _ x => _) fun _ _ _ => .const (by simp)

end Nsasm
