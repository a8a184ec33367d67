{
 "claims": [
  {
   "property": "C01",
   "status": "proved",
   "theorems": [
    "Nsasm.Props.C01_castTo_canonical"
   ],
   "note": ""
  },
  {
   "property": "C02",
   "status": "proved",
   "theorems": [
    "Nsasm.Props.C02_arith_semilattice",
    "Nsasm.Props.C02_type_independent_of_shape",
    "Nsasm.Props.C02_type_of_expression"
   ],
   "note": ""
  },
  {
   "property": "C03",
   "status": "proved",
   "theorems": [
    "Nsasm.Props.C03_addWrapped",
    "Nsasm.Props.C03_subtractWrapped"
   ],
   "note": ""
  },
  {
   "property": "C04",
   "status": "proved",
   "theorems": [
    "Nsasm.Props.C04_encode_iff",
    "Nsasm.Props.C04_encode_decode",
    "Nsasm.Props.C04_same_byte_same_mnemonic",
    "Nsasm.Props.C04_pseudo_not_encodable"
   ],
   "note": ""
  },
  {
   "property": "C05",
   "status": "proved",
   "theorems": [
    "Nsasm.Props.C05_assemble_writes_declared_size"
   ],
   "note": ""
  },
  {
   "property": "C06",
   "status": "proved",
   "theorems": [
    "Nsasm.Props.C06_decode_assembled",
    "Nsasm.Props.C06_pseudo_op"
   ],
   "note": ""
  },
  {
   "property": "C07",
   "status": "proved",
   "theorems": [
    "Nsasm.Props.C07_assemble_decoded"
   ],
   "note": ""
  },
  {
   "property": "C08",
   "status": "proved",
   "theorems": [
    "Nsasm.Props.C08_decode_succeeds_iff",
    "Nsasm.Props.C08_decode_local"
   ],
   "note": ""
  },
  {
   "property": "C09",
   "status": "proved",
   "theorems": [
    "Nsasm.Props.C09_deduced_mode_is_encodable"
   ],
   "note": ""
  },
  {
   "property": "C10",
   "status": "proved",
   "theorems": [
    "Nsasm.Props.C10_every_instruction_expressible",
    "Nsasm.Props.C10_pseudo_ops"
   ],
   "note": ""
  },
  {
   "property": "C11",
   "status": "proved",
   "theorems": [
    "Nsasm.Props.C11_mode_depends_on_types_only",
    "Nsasm.Props.C11_sized_operands",
    "Nsasm.Props.C11_field_not_narrower",
    "Nsasm.Props.C11_unsized_constant",
    "Nsasm.Props.C11_unsized_rejected"
   ],
   "note": ""
  },
  {
   "property": "C12",
   "status": "proved",
   "theorems": [
    "Nsasm.Props.C12_eval_is_integer_arithmetic",
    "Nsasm.Props.C12_eval_complete"
   ],
   "note": ""
  },
  {
   "property": "C13",
   "status": "proved",
   "theorems": [
    "Nsasm.Props.C13_no_lookup_constant"
   ],
   "note": ""
  },
  {
   "property": "C14",
   "status": "proved",
   "theorems": [
    "Nsasm.Props.C14_dependencies_complete",
    "Nsasm.Props.C14_dependencies_sound"
   ],
   "note": ""
  },
  {
   "property": "C15",
   "status": "proved",
   "theorems": [
    "Nsasm.Props.C15_flags_comm",
    "Nsasm.Props.C15_flags_idem",
    "Nsasm.Props.C15_flags_assoc",
    "Nsasm.Props.C15_flags_sound",
    "Nsasm.Props.C15_state_comm",
    "Nsasm.Props.C15_state_idem",
    "Nsasm.Props.C15_state_assoc",
    "Nsasm.Props.C15_state_sound"
   ],
   "note": ""
  },
  {
   "property": "C16",
   "status": "proved",
   "theorems": [
    "Nsasm.Props.C16_emulation_forces_8bit"
   ],
   "note": ""
  },
  {
   "property": "C17",
   "status": "proved",
   "theorems": [
    "Nsasm.Props.C17_accepted_iff",
    "Nsasm.Props.C17_case_insensitive",
    "Nsasm.Props.C17_name_round_trip",
    "Nsasm.Props.C17_name_loses_m"
   ],
   "note": ""
  },
  {
   "property": "C18",
   "status": "partial",
   "theorems": [
    "Nsasm.Props.C18_known_flags_partial",
    "Nsasm.Props.C18_original_flags_partial",
    "Nsasm.Props.C18_violated"
   ],
   "note": "Known flags are right along every path of accepted instructions (C18_known_flags_partial) except that the untracked stack instructions PHB/PHD/PHK/PLB/PLD/TXS/TCS may only occur where nothing is tracked; C18_violated is the counterexample without that. C18_original_flags_partial also gives the meaning of flags tracked as original, with a side condition on XCE."
  },
  {
   "property": "C19",
   "status": "partial",
   "theorems": [
    "Nsasm.Props.C19_push_pull_partial",
    "Nsasm.Props.C19_violated",
    "Nsasm.Props.C19_violated_other_sizes"
   ],
   "note": "C19_push_pull_partial characterises exactly when the register is restored; C19_violated: a 16-bit value comes back with its bytes swapped; C19_violated_other_sizes: sizes as on entry are undefined behaviour."
  },
  {
   "property": "C20",
   "status": "partial",
   "theorems": [
    "Nsasm.Props.C20_balanced_stack",
    "Nsasm.Props.C20_php_plp_partial",
    "Nsasm.Props.C20_violated"
   ],
   "note": "Proved for nested pushes and pulls of known sizes; PHB/PHK/PHD must be matched by PLB/PLD because the analysis does not track them (C20_violated)."
  },
  {
   "property": "C21",
   "status": "partial",
   "theorems": [
    "Nsasm.Props.C21_pull_undefined_iff",
    "Nsasm.Props.C21_defined_partial",
    "Nsasm.Props.C21_violated",
    "Nsasm.Props.C21_known_sizes_partial"
   ],
   "note": "C21_violated gives three programs with undefined behaviour; C21_pull_undefined_iff and C21_defined_partial say exactly when; from an entry that gives both sizes no pull is undefined (C21_known_sizes_partial)."
  },
  {
   "property": "C22",
   "status": "proved",
   "theorems": [
    "Nsasm.Props.C22_resolve_immediate",
    "Nsasm.Props.C22_suffix_contradiction",
    "Nsasm.Props.C22_accepted_size_agrees"
   ],
   "note": ""
  },
  {
   "property": "C23",
   "status": "proved",
   "theorems": [
    "Nsasm.Props.C23_contains_iff",
    "Nsasm.Props.C23_claim_chunk",
    "Nsasm.Props.C23_history"
   ],
   "note": ""
  },
  {
   "property": "C24",
   "status": "proved",
   "theorems": [
    "Nsasm.Props.C24_order_irrelevant",
    "Nsasm.Props.C24_permutation"
   ],
   "note": ""
  },
  {
   "property": "C25",
   "status": "proved",
   "theorems": [
    "Nsasm.Props.C25_claim_bytes",
    "Nsasm.Props.C25_claim_nothing"
   ],
   "note": ""
  },
  {
   "property": "C26",
   "status": "proved",
   "theorems": [
    "Nsasm.Props.C26_range_map"
   ],
   "note": ""
  },
  {
   "property": "C27",
   "status": "partial",
   "theorems": [
    "Nsasm.Props.C27_mapped_iff",
    "Nsasm.Props.C27_offset",
    "Nsasm.Props.C27_injective_up_to_mirrors",
    "Nsasm.Props.C27_never_system",
    "Nsasm.Props.C27_exhirom_same_half_partial"
   ],
   "note": "Proved for LoROM and HiROM in full; ExHiROM is mapped where it should be and injective only within one half, because of the bit-23 defect shown by C28_violated."
  },
  {
   "property": "C28",
   "status": "partial",
   "theorems": [
    "Nsasm.Props.C28_violated",
    "Nsasm.Props.C28_violated_everywhere",
    "Nsasm.Props.C28_low_banks_partial"
   ],
   "note": "The code violates the property: C28_violated and C28_violated_everywhere prove it for banks $80-$ff. Proved for banks $00-$7f."
  },
  {
   "property": "C29",
   "status": "partial",
   "theorems": [
    "Nsasm.Props.C29_bytes_right",
    "Nsasm.Props.C29_read_partial",
    "Nsasm.Props.C29_read_defined",
    "Nsasm.Props.C29_violated"
   ],
   "note": "The bytes returned are right for every length (C29_bytes_right); how many there are is proved for reads of at most 64 KiB. C29_violated: a read of 65538 bytes can succeed and return two bytes."
  },
  {
   "property": "C30",
   "status": "partial",
   "theorems": [
    "Nsasm.Props.C30_accepted_right",
    "Nsasm.Props.C30_identity_sink_partial",
    "Nsasm.Props.C30_violated"
   ],
   "note": "What is accepted is in the ROM for every length (C30_accepted_right); the converse is proved for writes of at most 64 KiB. C30_violated: a longer write makes the sink index past the end of a vector."
  },
  {
   "property": "C31",
   "status": "partial",
   "theorems": [
    "Nsasm.Props.C31_write_any",
    "Nsasm.Props.C31_failure",
    "Nsasm.Props.C31_violated_constructor",
    "Nsasm.Props.C31_violated_bound",
    "Nsasm.Props.C31_write_partial"
   ],
   "note": "The constructor dereferences a moved-from pointer (C31_violated_constructor) and the bound check is off by one (C31_violated_bound). Proved for the Write function itself, for every length (C31_write_any, C31_failure)."
  },
  {
   "property": "C32",
   "status": "proved",
   "theorems": [
    "Nsasm.Props.C32_one_end_of_line",
    "Nsasm.Props.C32_terminates"
   ],
   "note": ""
  },
  {
   "property": "C33",
   "status": "proved",
   "theorems": [
    "Nsasm.Props.C33_comment",
    "Nsasm.Props.C33_blank_separates",
    "Nsasm.Props.C33_blanks"
   ],
   "note": ""
  },
  {
   "property": "C34",
   "status": "proved",
   "theorems": [
    "Nsasm.Props.C34_stays_on_line",
    "Nsasm.Props.C34_source_line",
    "Nsasm.Props.C34_overflow_while_parsing"
   ],
   "note": ""
  },
  {
   "property": "C35",
   "status": "proved",
   "theorems": [
    "Nsasm.Props.C35_accepts_grammar",
    "Nsasm.Props.C35_only_grammar",
    "Nsasm.Props.C35_round_trip",
    "Nsasm.Props.C35_text",
    "Nsasm.Props.C35_whole_text"
   ],
   "note": ""
  },
  {
   "property": "C36",
   "status": "partial",
   "theorems": [
    "Nsasm.Props.C36_all_tokens_partial",
    "Nsasm.Props.C36_no_statement_dropped_partial",
    "Nsasm.Props.C36_source_line_partial",
    "Nsasm.Props.C36_violated_colon",
    "Nsasm.Props.C36_violated_paren"
   ],
   "note": "Proved for lines with balanced parentheses and no empty statement; both violations of the full property are proved (C36_violated_*)."
  },
  {
   "property": "C37",
   "status": "partial",
   "theorems": [
    "Nsasm.Props.C37_reparse_partial",
    "Nsasm.Props.C37_same_bytes_partial",
    "Nsasm.Props.C37_violated"
   ],
   "note": "Proved for every opcode with a non-relative operand; for relative branches and PER the printed offset is rejected by the parser (C37_violated)."
  },
  {
   "property": "C38",
   "status": "proved",
   "theorems": [
    "Nsasm.Props.C38_exactly",
    "Nsasm.Props.C38_resolution",
    "Nsasm.Props.C38_exports",
    "Nsasm.Props.C38_accepts",
    "Nsasm.Props.C38_rejects"
   ],
   "note": ""
  },
  {
   "property": "C39",
   "status": "proved",
   "theorems": [
    "Nsasm.Props.C39_layout"
   ],
   "note": ""
  },
  {
   "property": "C40",
   "status": "proved",
   "theorems": [
    "Nsasm.Props.C40_first_pass_terminates"
   ],
   "note": ""
  },
  {
   "property": "C41",
   "status": "partial",
   "theorems": [
    "Nsasm.Props.C41_sizes_right_partial",
    "Nsasm.Props.C41_forward_partial",
    "Nsasm.Props.C41_violated"
   ],
   "note": "The code violates the property: a branch back to an analysed line replaces the recorded state instead of merging it (C41_violated). Proved for every program whose recorded states cover what flows into them, which can be checked on the result, and in particular for every program without backward branches; in both cases the untracked stack instructions may only occur where nothing is tracked (C18_violated)."
  },
  {
   "property": "C42",
   "status": "proved",
   "theorems": [
    "Nsasm.Props.C42_every_instruction_analysed"
   ],
   "note": ""
  },
  {
   "property": "C43",
   "status": "proved",
   "theorems": [
    "Nsasm.Props.C43_equ_values"
   ],
   "note": ""
  },
  {
   "property": "C44",
   "status": "proved",
   "theorems": [
    "Nsasm.Props.C44_written_once",
    "Nsasm.Props.C44_section_fits"
   ],
   "note": ""
  },
  {
   "property": "C45",
   "status": "proved",
   "theorems": [
    "Nsasm.Props.C45_dependencies",
    "Nsasm.Props.C45_order_sound",
    "Nsasm.Props.C45_order_found_iff",
    "Nsasm.Props.C45_bound_not_reached"
   ],
   "note": ""
  },
  {
   "property": "C46",
   "status": "proved",
   "theorems": [
    "Nsasm.Props.C46_order_independent"
   ],
   "note": ""
  },
  {
   "property": "C47",
   "status": "partial",
   "theorems": [
    "Nsasm.Props.C47_targets_partial",
    "Nsasm.Props.C47_violated",
    "Nsasm.Props.C47_flags"
   ],
   "note": "Proved for targets given by number and for .remote; a call of an external routine through a name is not reported (C47_violated). The reported flags cover those at every such line (C47_targets_partial) and keep every flag that is known alike at all of them (C47_flags)."
  },
  {
   "property": "C48",
   "status": "proved",
   "theorems": [
    "Nsasm.Props.C48_terminates",
    "Nsasm.Props.C48_rom_terminates"
   ],
   "note": ""
  },
  {
   "property": "C49",
   "status": "partial",
   "theorems": [
    "Nsasm.Props.C49_closed",
    "Nsasm.Props.C49_start_listed",
    "Nsasm.Props.C49_kept",
    "Nsasm.Props.C49_shows_execution_partial",
    "Nsasm.Props.C49_violated"
   ],
   "note": "Closure under control flow, decoding of the bytes and coverage of the propagated states are proved without restriction (C49_closed, C49_start_listed, C49_kept). The reading in which a processor runs the bytes is false because PHB, PHD, PHK, PLB, PLD, TCS, TXS are not tracked (C49_violated); C49_shows_execution_partial excludes those where something is tracked on the stack, and takes calls to return as the listing says."
  },
  {
   "property": "C50",
   "status": "proved",
   "theorems": [
    "Nsasm.Props.C50_failure_keeps_result",
    "Nsasm.Props.C50_entry_point_remains"
   ],
   "note": ""
  },
  {
   "property": "C51",
   "status": "proved",
   "theorems": [
    "Nsasm.Props.C51_labels_distinct",
    "Nsasm.Props.C51_branches_labelled"
   ],
   "note": ""
  },
  {
   "property": "C52",
   "status": "partial",
   "theorems": [
    "Nsasm.Props.C52_cleanup_preserves_bytes_partial",
    "Nsasm.Props.C52_violated"
   ],
   "note": "Proved for listings in which no entry crosses the end of a bank (C52_cleanup_preserves_bytes_partial); C52_violated: CLC in the last byte of a bank is folded with the ADC in the next bank."
  },
  {
   "property": "C53",
   "status": "partial",
   "theorems": [
    "Nsasm.Props.C53_call_sites_partial",
    "Nsasm.Props.C53_only_targets",
    "Nsasm.Props.C53_execution_partial",
    "Nsasm.Props.C53_violated"
   ],
   "note": "Proved for call sites without a yields convention, for the recorded states and for a processor that runs the bytes; C53_violated: a call annotated with yields that is visited again is reported with the flags after its return."
  },
  {
   "property": "C54",
   "status": "proved",
   "theorems": [
    "Nsasm.Props.C54_data_directive"
   ],
   "note": ""
  },
  {
   "property": "C55",
   "status": "proved",
   "theorems": [
    "Nsasm.Props.C55_opcode_table_is_data_sheet",
    "Nsasm.Props.C55_instruction_lengths"
   ],
   "note": ""
  },
  {
   "property": "C56",
   "status": "proved",
   "theorems": [
    "Nsasm.Props.C56_never_into_data"
   ],
   "note": ""
  },
  {
   "property": "C57",
   "status": "proved",
   "theorems": [
    "Nsasm.Props.C57_image",
    "Nsasm.Props.C57_values"
   ],
   "note": ""
  },
  {
   "property": "C58",
   "status": "partial",
   "theorems": [
    "Nsasm.Props.C58_entry_reassembles_partial",
    "Nsasm.Props.C58_rom_reassembles_partial",
    "Nsasm.Props.C58_rom_covered_partial",
    "Nsasm.Props.C58_violated",
    "Nsasm.Props.C58_violated_second_cleanup"
   ],
   "note": "Proved for every entry other than PER, and after one Cleanup; C58_violated: PER is listed with its offset where the assembler takes a target; C58_violated_second_cleanup: after a second Cleanup a jump may refer to a name that no longer exists."
  },
  {
   "property": "C59",
   "status": "partial",
   "theorems": [
    "Nsasm.Props.C59_accepts",
    "Nsasm.Props.C59_tokens_partial",
    "Nsasm.Props.C59_violated"
   ],
   "note": "Which texts are accepted, how they are split and the tokens are proved for every text; numbers of 2^31 and more are read as other numbers (C59_violated), so their values are exact only below that (C59_tokens_partial)."
  },
  {
   "property": "C60",
   "status": "partial",
   "theorems": [
    "Nsasm.Props.C60_load",
    "Nsasm.Props.C60_defined_partial",
    "Nsasm.Props.C60_violated_short",
    "Nsasm.Props.C60_save_partial"
   ],
   "note": "Which files are loaded and as what is proved for every file (C60_load). A file of 512 bytes has undefined behaviour (C60_violated_short); the round trip is proved for the buffer an overwriter should have, since its constructor is undefined (C31_violated_constructor)."
  },
  {
   "property": "C61",
   "status": "partial",
   "theorems": [
    "Nsasm.Props.C61_readable_iff",
    "Nsasm.Props.C61_all_readable_partial",
    "Nsasm.Props.C61_violated",
    "Nsasm.Props.C61_violated_extended"
   ],
   "note": "Proved for LoROM and HiROM images of at most 4 MiB; which bytes can be read is proved exactly for every image (C61_readable_iff). A HiROM image of exactly 4 MiB is loaded as an extended one and nothing of it can be read (C61_violated); of extended images the first 4 MiB cannot be read (C61_violated_extended)."
  },
  {
   "property": "C62",
   "status": "partial",
   "theorems": [
    "Nsasm.Props.C62_dump_assembles_partial",
    "Nsasm.Props.C62_prints_iff",
    "Nsasm.Props.C62_violated",
    "Nsasm.Props.C62_long_refused",
    "Nsasm.Props.C62_accepted_iff"
   ],
   "note": "Proved for dumps of at most 64 KiB, for every value size and line length; exactly these are accepted (C62_accepted_iff), since a longer dump repeats addresses. An unreadable value ends the program by an exception instead of an error message (C62_violated, C62_prints_iff)."
  },
  {
   "property": "C63",
   "status": "partial",
   "theorems": [
    "Nsasm.Props.C63_reads_back_partial",
    "Nsasm.Props.C63_violated",
    "Nsasm.Props.C63_read_iff"
   ],
   "note": "Proved for listings without PER in which the carry is not known at entry points. C63_violated: flags with a known carry are printed with \", c=1\", which the tokenizer rejects. C63_read_iff: for ROMs these are exactly the listings that can be read."
  },
  {
   "property": "C64",
   "status": "proved",
   "theorems": [
    "Nsasm.Props.C64_listing_reassembles"
   ],
   "note": ""
  },
  {
   "property": "C65",
   "status": "partial",
   "theorems": [
    "Nsasm.Props.C65_listing_accepted_partial",
    "Nsasm.Props.C65_rom_round_trip_partial",
    "Nsasm.Props.C65_entries",
    "Nsasm.Props.C65_violated"
   ],
   "note": "Proved for every listing without PER whose instructions do not overlap or straddle banks, whose sizes did not become unknown after a suffix was chosen (C65_violated) and whose entry points can be declared (C65_entries says which; C63_violated). Acceptance and equality with the ROM are both proved."
  },
  {
   "property": "C66",
   "status": "partial",
   "theorems": [
    "Nsasm.Props.C66_identity_check",
    "Nsasm.Props.C66_violated"
   ],
   "note": "The check with - is proved as an equivalence (C66_identity_check). With any other output path the program is undefined whatever the input (C66_violated)."
  },
  {
   "property": "C67",
   "status": "partial",
   "theorems": [
    "Nsasm.Props.C67_output",
    "Nsasm.Props.C67_round_trip_partial",
    "Nsasm.Props.C67_entries"
   ],
   "note": "Proved under the conditions of C65, with the error comments in front of the listing; C67_entries says which entry points can be declared when no errors were printed."
  },
  {
   "property": "C68",
   "status": "partial",
   "theorems": [
    "Nsasm.Props.C68_seeds",
    "Nsasm.Props.C68_all_followed_partial",
    "Nsasm.Props.C68_execution_partial",
    "Nsasm.Props.C68_terminates",
    "Nsasm.Props.C68_violated",
    "Nsasm.Props.C68_violated_repeated"
   ],
   "note": "Termination is proved for every ROM and every list of arguments. Proved whenever nothing is left after the 100 passes; C68_violated: after 100 passes the tool stops silently; C68_violated_repeated: the second of two modes for the same address is ignored. C68_execution_partial excludes the untracked stack instructions (C49_violated)."
  },
  {
   "property": "C69",
   "status": "partial",
   "theorems": [
    "Nsasm.Props.C69_nothing_left_partial",
    "Nsasm.Props.C69_violated"
   ],
   "note": "Whenever anything is left to disassemble the program is undefined (C69_violated); only the case with nothing left works."
  },
  {
   "property": "C70",
   "status": "partial",
   "theorems": [
    "Nsasm.Props.C70_terminates_partial",
    "Nsasm.Props.C70_violated"
   ],
   "note": "Proved for every start in a bank that does not begin with ROM: all of LoROM, the lower and mirrored banks of the others. C70_violated: a HiROM bank full of NOPs is listed forever."
  },
  {
   "property": "C71",
   "status": "partial",
   "theorems": [
    "Nsasm.Props.C71_defined_partial",
    "Nsasm.Props.C71_cause",
    "Nsasm.Props.C71_cleanup",
    "Nsasm.Props.C71_tool_cause",
    "Nsasm.Props.C71_tool_sizes_partial",
    "Nsasm.Props.C71_dumb",
    "Nsasm.Props.C71_violated"
   ],
   "note": "Clean-up never crashes (C71_cleanup). Disassembling crashes when a routine that is called with both accumulator sizes pulls a register (C71_violated). It is proved that nothing else can be the cause (C71_cause, C71_tool_cause, C71_dumb) and that there is no crash when the sizes are given by every mode (C71_defined_partial, C71_tool_sizes_partial)."
  },
  {
   "property": "C72",
   "status": "partial",
   "theorems": [
    "Nsasm.Props.C72_defined_partial",
    "Nsasm.Props.C72_plain_partial",
    "Nsasm.Props.C72_loading",
    "Nsasm.Props.C72_loading_lines",
    "Nsasm.Props.C72_violated",
    "Nsasm.Props.C72_violated_pull",
    "Nsasm.Props.C72_violated_overflow"
   ],
   "note": "Proved for every set of files that keep within some bounds on the values of names (C72_defined_partial), in particular for plain files (C72_plain_partial): no products, at most 127 tokens to a line, addresses where addresses are wanted, sizes given by every .entry. The assembler crashes on files outside the bounds: C72_violated, C72_violated_pull, C72_violated_overflow."
  },
  {
   "property": "C73",
   "status": "proved",
   "theorems": [
    "Nsasm.Props.C73_accepts_grammar",
    "Nsasm.Props.C73_unambiguous",
    "Nsasm.Props.C73_exact"
   ],
   "note": ""
  },
  {
   "property": "C74",
   "status": "proved",
   "theorems": [
    "Nsasm.Props.C74_layout",
    "Nsasm.Props.C74_same_output",
    "Nsasm.Props.C74_read_back",
    "Nsasm.Props.C74_last_newline",
    "Nsasm.Props.C74_line_ends",
    "Nsasm.Props.C74_fake_file"
   ],
   "note": ""
  },
  {
   "property": "C75",
   "status": "partial",
   "theorems": [
    "Nsasm.Props.C75_simulates_partial",
    "Nsasm.Props.C75_finds_partial",
    "Nsasm.Props.C75_violated"
   ],
   "note": "Proved for programs whose immediate sizes the analysis gets right (Consistent, StackTame: always so without backward branches and untracked stack instructions; false otherwise, C41_violated), whose branches go to places rather than to .equ names (C75_violated) and whose calls return as the source says."
  },
  {
   "property": "C76",
   "status": "partial",
   "theorems": [
    "Nsasm.Props.C76_nothing_else_partial",
    "Nsasm.Props.C76_violated"
   ],
   "note": "Under the conditions of C75 (C76_violated shows that the one on .equ names is needed), when what the file asserts with .mode and .halt is true."
  },
  {
   "property": "C77",
   "status": "partial",
   "theorems": [
    "Nsasm.Props.C77_lists_program_partial",
    "Nsasm.Props.C77_fresh_partial",
    "Nsasm.Props.C77_violated"
   ],
   "note": "Under the conditions of C75 and C49; C77_violated: what stands in the last three bytes of a LoROM bank cannot be disassembled, because four bytes are always read."
  },
  {
   "property": "C78",
   "status": "partial",
   "theorems": [
    "Nsasm.Props.C78_succeeds_partial",
    "Nsasm.Props.C78_exact_partial",
    "Nsasm.Props.C78_shows_partial",
    "Nsasm.Props.C78_forward_partial",
    "Nsasm.Props.C78_violated"
   ],
   "note": "For programs on which the analysis has come to rest (AtRest, checkable; C78_forward_partial proves it for programs without backward branches; C78_violated shows a program where it has not), without .mode, .halt and return conventions (the bytes do not show them), whose branches go to places, from an entry that gives both sizes."
  },
  {
   "property": "C79",
   "status": "proved",
   "theorems": [
    "Nsasm.Props.C79_added",
    "Nsasm.Props.C79_combined",
    "Nsasm.Props.C79_permuted",
    "Nsasm.Props.C79_removed"
   ],
   "note": ""
  },
  {
   "property": "C80",
   "status": "partial",
   "theorems": [
    "Nsasm.Props.C80_same_outcome",
    "Nsasm.Props.C80_reported_partial",
    "Nsasm.Props.C80_violated_duplicate",
    "Nsasm.Props.C80_violated_label",
    "Nsasm.Props.C80_violated_missing",
    "Nsasm.Props.C80_violated_word"
   ],
   "note": "Every error with a location other than the one for a name defined by two files is due to the line it names (C80_reported_partial, which also says what the other errors are). C80_violated_duplicate, C80_violated_missing, C80_violated_word, C80_violated_label show wrong and missing locations."
  },
  {
   "property": "C81",
   "status": "partial",
   "theorems": [
    "Nsasm.Props.C81_same_outcome",
    "Nsasm.Props.C81_any_order_partial",
    "Nsasm.Props.C81_violated",
    "Nsasm.Props.C81_violated_name"
   ],
   "note": "Proved for the writes, the error and all answers of the assembler, except for the name given for an address that has several (C81_violated_name) and for files in which one name has no value and another is no address (C81_violated): there the order decides between an error and a crash."
  },
  {
   "property": "C82",
   "status": "proved",
   "theorems": [
    "Nsasm.Props.C82_renaming",
    "Nsasm.Props.C82_exchange"
   ],
   "note": ""
  },
  {
   "property": "C83",
   "status": "proved",
   "theorems": [
    "Nsasm.Props.C83_names",
    "Nsasm.Props.C83_conventions"
   ],
   "note": ""
  },
  {
   "property": "C84",
   "status": "partial",
   "theorems": [
    "Nsasm.Props.C84_removed",
    "Nsasm.Props.C84_added_partial",
    "Nsasm.Props.C84_violated"
   ],
   "note": "Removing such a label is always harmless (C84_removed). Adding one either has no effect or the assembly now fails because a name has no value or a value that is no address (C84_added_partial); C84_violated shows that this does happen: a label in front of .module or .org, or in front of a negative constant."
  },
  {
   "property": "C85",
   "status": "proved",
   "theorems": [
    "Nsasm.Props.C85_prints",
    "Nsasm.Props.C85_bytes"
   ],
   "note": ""
  },
  {
   "property": "C86",
   "status": "partial",
   "theorems": [
    "Nsasm.Props.C86_quick_assemble",
    "Nsasm.Props.C86_disassemble_more",
    "Nsasm.Props.C86_quick_disassemble_partial",
    "Nsasm.Props.C86_plain",
    "Nsasm.Props.C86_violated"
   ],
   "note": "All ends of all four tools are described (C86_quick_assemble, C86_disassemble_more, C86_plain, C86_quick_disassemble_partial). quick_disassemble ends with status 0 even if disassembling failed at every address it was given; the failure is only a comment in its output (C86_violated). With an output path quick_assemble has no defined end (C66_violated), and disassemble_more has none when something is left to disassemble (C69_violated)."
  },
  {
   "property": "C87",
   "status": "partial",
   "theorems": [
    "Nsasm.Props.C87_same_entries",
    "Nsasm.Props.C87_more_calls",
    "Nsasm.Props.C87_same_listing_partial",
    "Nsasm.Props.C87_any_order_partial",
    "Nsasm.Props.C87_arguments",
    "Nsasm.Props.C87_violated",
    "Nsasm.Props.C87_violated_undefined"
   ],
   "note": "The entries and the effect of more calls are proved in full (C87_same_entries, C87_more_calls), and so are the arguments of the tool (C87_arguments). The printed listing is the same but for the suffixes .b and .w, and these too where the flags tell the sizes (C87_same_listing_partial); C87_violated shows a suffix that depends on the order. That the calls succeed in any order is proved for calls that give both sizes (C87_any_order_partial); without them the order can decide over undefined behaviour (C87_violated_undefined)."
  },
  {
   "property": "C88",
   "status": "partial",
   "theorems": [
    "Nsasm.Props.C88_reads_back_partial",
    "Nsasm.Props.C88_distinct_partial",
    "Nsasm.Props.C88_session_partial",
    "Nsasm.Props.C88_violated"
   ],
   "note": "Proved for all labels, and for all statements without operators and negative numbers other than .remote (C88_reads_back_partial, C88_distinct_partial, C88_session_partial). C88_violated: an operator is shown as op-(foo), which is read as a difference or refused; a number of 2^31 and more is shown as a negative one; .remote is shown without its name and its return convention."
  },
  {
   "property": "C89",
   "status": "proved",
   "theorems": [
    "Nsasm.Props.C89_same_layout",
    "Nsasm.Props.C89_image",
    "Nsasm.Props.C89_same_places",
    "Nsasm.Props.C89_same_values",
    "Nsasm.Props.C89_labels_steady"
   ],
   "note": ""
  },
  {
   "property": "C90",
   "status": "proved",
   "theorems": [
    "Nsasm.Props.C90_same_analysis",
    "Nsasm.Props.C90_moves",
    "Nsasm.Props.C90_image",
    "Nsasm.Props.C90_constants"
   ],
   "note": ""
  },
  {
   "property": "C91",
   "status": "partial",
   "theorems": [
    "Nsasm.Props.C91_load_partial",
    "Nsasm.Props.C91_violated_large",
    "Nsasm.Props.C91_source",
    "Nsasm.Props.C91_closed_partial",
    "Nsasm.Props.C91_violated_open",
    "Nsasm.Props.C91_save",
    "Nsasm.Props.C91_violated_save",
    "Nsasm.Props.C91_tools",
    "Nsasm.Props.C91_no_rom",
    "Nsasm.Props.C91_no_source"
   ],
   "note": "The tools are proved in full (C91_tools, C91_no_rom, C91_no_source), and so are reading sources (C91_source) and saving (C91_save). Loading a ROM is proved for files of less than 2 GiB (C91_load_partial); a file of more than 4 GiB is taken for the ROM it begins with (C91_violated_large). A stream is left open when reading the header of a ROM fails (C91_violated_open, C91_closed_partial) and when saving fails; then the old content of the file is lost as well (C91_violated_save)."
  },
  {
   "property": "C92",
   "status": "partial",
   "theorems": [
    "Nsasm.Props.C92_quick_assemble",
    "Nsasm.Props.C92_disassemble_more",
    "Nsasm.Props.C92_quick_disassemble_partial",
    "Nsasm.Props.C92_dumb_disassemble_partial",
    "Nsasm.Props.C92_quick_dump_partial",
    "Nsasm.Props.C92_usage_partial",
    "Nsasm.Props.C92_violated_unpaired",
    "Nsasm.Props.C92_violated_garbage",
    "Nsasm.Props.C92_violated_blank"
   ],
   "note": "Proved for command lines of the right form (C92_quick_assemble, C92_disassemble_more, C92_quick_disassemble_partial, C92_dumb_disassemble_partial, C92_quick_dump_partial) and for too few words, where the status is 0 (C92_usage_partial). Other command lines are not always refused: a last word without a partner is ignored (C92_violated_unpaired), a word that only begins with a number is taken for it (C92_violated_garbage), and an empty one makes the tool use a variable that was never set (C92_violated_blank)."
  },
  {
   "property": "C93",
   "status": "partial",
   "theorems": [
    "Nsasm.Props.C93_line_partial",
    "Nsasm.Props.C93_image_partial",
    "Nsasm.Props.C93_constants",
    "Nsasm.Props.C93_computed",
    "Nsasm.Props.C93_violated"
   ],
   "note": "Proved for constants, data, and all operands but those that the analysis of the code looks at (C93_line_partial, C93_image_partial, C93_constants, C93_computed), when both versions assemble. C93_violated: rep #$30 is understood by the analysis, rep #<flags is not, although flags is $30."
  },
  {
   "property": "C94",
   "status": "proved",
   "theorems": [
    "Nsasm.Props.C94_split",
    "Nsasm.Props.C94_joined"
   ],
   "note": ""
  },
  {
   "property": "C95",
   "status": "partial",
   "theorems": [
    "Nsasm.Props.C95_removed_partial",
    "Nsasm.Props.C95_added_partial",
    "Nsasm.Props.C95_violated"
   ],
   "note": "Proved where execution cannot come: after a statement that it does not get past, or where no code follows before the next data, .org or end of the file (C95_removed_partial, C95_added_partial; a constant that is no address may still end the assembly, as in C84). In the middle of code it is false (C95_violated): the flow analysis overwrites what it knew of a line instead of merging, so that an unused constant between two instructions can give the second another size."
  },
  {
   "property": "C96",
   "status": "proved",
   "theorems": [
    "Nsasm.Props.C96_tokens",
    "Nsasm.Props.C96_line",
    "Nsasm.Props.C96_program"
   ],
   "note": ""
  },
  {
   "property": "C97",
   "status": "proved",
   "theorems": [
    "Nsasm.Props.C97_call",
    "Nsasm.Props.C97_calls",
    "Nsasm.Props.C97_rom",
    "Nsasm.Props.C97_tool"
   ],
   "note": ""
  },
  {
   "property": "C98",
   "status": "proved",
   "theorems": [
    "Nsasm.Props.C98_checked"
   ],
   "note": ""
  },
  {
   "property": "C99",
   "status": "proved",
   "theorems": [
    "Nsasm.Props.C99_bindings",
    "Nsasm.Props.C99_block",
    "Nsasm.Props.C99_renamed"
   ],
   "note": ""
  },
  {
   "property": "C100",
   "status": "partial",
   "theorems": [
    "Nsasm.Props.C100_image",
    "Nsasm.Props.C100_again",
    "Nsasm.Props.C100_check_iff",
    "Nsasm.Props.C100_check_partial",
    "Nsasm.Props.C100_saved_partial",
    "Nsasm.Props.C100_order_partial",
    "Nsasm.Props.C100_violated",
    "Nsasm.Props.C100_violated_order"
   ],
   "note": "Which assemblies succeed, the image and the effect of doing it again are proved without restriction (C100_image, C100_again). C100_check_iff says exactly when the result passes the check: when bytes that have the same place in the cartridge agree. C100_violated and C100_violated_order: the assembler accepts programs that write one byte through two mirrored addresses. C100_saved_partial: the saved file is loaded again if the places of the checksums are not written."
  },
  {
   "property": "C101",
   "status": "proved",
   "theorems": [
    "Nsasm.Props.C101_any_sink",
    "Nsasm.Props.C101_ends",
    "Nsasm.Props.C101_stops_anywhere"
   ],
   "note": ""
  },
  {
   "property": "C102",
   "status": "partial",
   "theorems": [
    "Nsasm.Props.C102_same_outcome",
    "Nsasm.Props.C102_reported",
    "Nsasm.Props.C102_exact",
    "Nsasm.Props.C102_text",
    "Nsasm.Props.C102_text_nowhere",
    "Nsasm.Props.C102_read_partial",
    "Nsasm.Props.C102_violated"
   ],
   "note": "Where the disassembler fails and what it reports are proved in full (C102_reported, C102_exact), and so is the printing of locations (C102_text). C102_read_partial: a read that begins and ends at addresses of the cartridge and ends past the end of the image is reported with a line number, which is an offset in the image, instead of an address (C102_violated)."
  },
  {
   "property": "C103",
   "status": "proved",
   "theorems": [
    "Nsasm.Props.C103_listed_iff",
    "Nsasm.Props.C103_entry",
    "Nsasm.Props.C103_flags",
    "Nsasm.Props.C103_targets"
   ],
   "note": ""
  },
  {
   "property": "C104",
   "status": "proved",
   "theorems": [
    "Nsasm.Props.C104_same_outcome",
    "Nsasm.Props.C104_removed",
    "Nsasm.Props.C104_added",
    "Nsasm.Props.C104_text"
   ],
   "note": ""
  },
  {
   "property": "C105",
   "status": "proved",
   "theorems": [
    "Nsasm.Props.C105_joined",
    "Nsasm.Props.C105_order_matters",
    "Nsasm.Props.C105_last_label_matters",
    "Nsasm.Props.C105_two",
    "Nsasm.Props.C105_program"
   ],
   "note": ""
  },
  {
   "property": "C106",
   "status": "proved",
   "theorems": [
    "Nsasm.Props.C106_divided",
    "Nsasm.Props.C106_reordered",
    "Nsasm.Props.C106_org_matters",
    "Nsasm.Props.C106_branch_matters",
    "Nsasm.Props.C106_order_matters",
    "Nsasm.Props.C106_left_out"
   ],
   "note": ""
  },
  {
   "property": "C107",
   "status": "proved",
   "theorems": [
    "Nsasm.Props.C107_families",
    "Nsasm.Props.C107_all_there",
    "Nsasm.Props.C107_relatives",
    "Nsasm.Props.C107_operand_type"
   ],
   "note": ""
  },
  {
   "property": "C108",
   "status": "partial",
   "theorems": [
    "Nsasm.Props.C108_shows",
    "Nsasm.Props.C108_addresses",
    "Nsasm.Props.C108_constants",
    "Nsasm.Props.C108_column",
    "Nsasm.Props.C108_reads_back_partial",
    "Nsasm.Props.C108_again_partial",
    "Nsasm.Props.C108_violated"
   ],
   "note": "Rows, addresses and constants are proved for all programs (C108_shows, C108_addresses, C108_constants, C108_column). Reading back is proved for files without operators, negative numbers, .remote and export in scopes (C108_reads_back_partial, C108_again_partial). C108_violated: the listing of a file with an exported label in a scope may be refused, because export is not shown, and the listing of a negative number may assemble to other bytes."
  },
  {
   "property": "C109",
   "status": "proved",
   "theorems": [
    "Nsasm.Props.C109_export",
    "Nsasm.Props.C109_same_output",
    "Nsasm.Props.C109_scope_matters"
   ],
   "note": ""
  },
  {
   "property": "C110",
   "status": "partial",
   "theorems": [
    "Nsasm.Props.C110_same_answers_partial",
    "Nsasm.Props.C110_conventions_partial",
    "Nsasm.Props.C110_violated_names",
    "Nsasm.Props.C110_violated_conventions"
   ],
   "note": "The writes, the values of exported names, the contained addresses and the jump targets with their flags are the same in every order, and so are the addresses that have a name or a return convention (C110_same_answers_partial); a return convention reported in one order is declared in the files, and does not depend on the order if the files declare only one for the address (C110_conventions_partial). The full property is false: of two names for an address, and of two return conventions, the one of the first file is given (C110_violated_names, C110_violated_conventions)."
  },
  {
   "property": "C111",
   "status": "proved",
   "theorems": [
    "Nsasm.Props.C111_accepted",
    "Nsasm.Props.C111_refused",
    "Nsasm.Props.C111_long_reach",
    "Nsasm.Props.C111_long_will_do"
   ],
   "note": ""
  },
  {
   "property": "C112",
   "status": "partial",
   "theorems": [
    "Nsasm.Props.C112_rows",
    "Nsasm.Props.C112_distinguishes_partial",
    "Nsasm.Props.C112_violated"
   ],
   "note": "The rows are those of the data sheet (C112_rows). Two opcodes are shown by the same text exactly if they have the same mnemonic and modes that differ only in the width of the operand (C112_distinguishes_partial). The full property is false: the width is not shown (C112_violated)."
  },
  {
   "property": "C113",
   "status": "proved",
   "theorems": [
    "Nsasm.Props.C113_once",
    "Nsasm.Props.C113_once_is_enough"
   ],
   "note": ""
  }
 ]
}