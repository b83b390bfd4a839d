{
 "claims": [
  {
   "property": "C01",
   "status": "proved",
   "theorems": [
    "Verif.Huff.seq_huffman_roundtrip"
   ],
   "note": "portable 64-bit C path, slow decoder path"
  },
  {
   "property": "C02",
   "status": "proved",
   "theorems": [
    "Verif.Prog.prog_roundtrip",
    "Verif.Prog.prog_roundtrip_complete",
    "Verif.Prog.prog_roundtrip_opt"
   ],
   "note": "Whole progressive files: any accepted scan script, any geometry, restart interval, tables; with the library's own optimal tables in prog_roundtrip_opt. trellis-preset counters not modelled."
  },
  {
   "property": "C03",
   "status": "proved",
   "theorems": [
    "Verif.Lossless.lossless_roundtrip",
    "Verif.Lossless.lossless_enabled_roundtrip",
    "Verif.Lossless.diffs_conform"
   ],
   "note": "All widths, heights, component counts, 8/12/16-bit, predictors 1-7, point transforms, row-multiple restart intervals, any accepted lossless script; second theorem with the library-generated Huffman tables (fewer than 1e9 samples per table); third: the coded differences are those of T.81 Annex H."
  },
  {
   "property": "C04",
   "status": "proved",
   "theorems": [
    "Verif.Arith.C04_arith_roundtrip",
    "Verif.Arith.C04_arith_decisions",
    "Verif.Arith.C04_encoder_registers",
    "Verif.Arith.C04_decoder_total"
   ],
   "note": "All decision lists, bins, starting bin values (valid table indices); decoder procedures may choose bins adaptively. Also: no data bytes left unread before the following marker; register ranges; the decoder is total on arbitrary bytes that end in a marker. Not modelled: emit_byte during trellis passes (no output), source without any marker."
  },
  {
   "property": "C05",
   "status": "proved",
   "theorems": [
    "Verif.Huff.Opt.optimal_table_usable"
   ],
   "note": "Merging loop refined to Huffman's procedure; length limiting keeps count and Kraft sum; counting sort is a permutation."
  },
  {
   "property": "C06",
   "status": "proved",
   "theorems": [
    "Verif.Huff.scan_bytes_structure"
   ],
   "note": "sequential Huffman encoder"
  },
  {
   "property": "C07",
   "status": "proved",
   "theorems": [
    "Verif.Huff.table_accepted_iff",
    "Verif.Huff.encoder_table_prefix_code",
    "Verif.Huff.decode_paths_agree"
   ],
   "note": ""
  },
  {
   "property": "C08",
   "status": "proved",
   "theorems": [
    "Verif.Huff.C08_no_fault",
    "Verif.Huff.C08_segment",
    "Verif.Huff.C08_values",
    "Verif.Huff.C08_skip"
   ],
   "note": "sequential decoder (decode_mcu_slow, jpeg_huff_decode, jpeg_fill_bit_buffer): checked copy with C array sizes never faults; a closed segment decodes as its bits followed by zeros, one JWRN_HIT_MARKER; last_dc_val may wrap in C as its comment says (16-bit result unaffected)"
  },
  {
   "property": "C09",
   "status": "proved",
   "theorems": [
    "Verif.Mark.C09_markers_chunk_independent",
    "Verif.Rst.C30_chunks",
    "Verif.Huff.C09_huffman_chunks",
    "Verif.Huff.C09_huffman_progress"
   ],
   "note": "headers, restart markers, sequential Huffman scans (decode_mcu with both paths, restarts, retries on blocks as left by a suspension), all chunkings of all data containing an EOI marker; exceptions stated in the property (repeated warnings; FF FF 00 without restarts). Progressive, arithmetic and lossless decoders not covered."
  },
  {
   "property": "C10",
   "status": "proved",
   "theorems": [
    "Verif.Mark.C10_image",
    "Verif.Mark.C10_scans",
    "Verif.Mark.C10_file_header",
    "Verif.Mark.C10_tables_only",
    "Verif.Mark.C10_frame_marker",
    "Verif.Mark.C10_lossless_no_tables",
    "Verif.Mark.C10_component_limit",
    "Verif.Mark.C10_shared_dc_defect"
   ],
   "note": "Headers written by the marker writer are read back by the marker reader: file header, application markers, frame, tables (abbreviated datastreams included), scan headers of every scan. Conditions on scans (ScanFits, TblFits) exclude what the library itself gets wrong: components with index >= 4 or scans in decreasing order (get_sos), DC tables shared without sharing AC tables (emit_multi_dht), lossless mode without JCP_FASTEST; the last three theorems prove these defects."
  },
  {
   "property": "C11",
   "status": "proved",
   "theorems": [
    "Verif.Mark.C11_reader_safe",
    "Verif.Mark.C11_segment_exact",
    "Verif.Mark.C11_saved_limits",
    "Verif.Mark.C11_limits",
    "Verif.Mark.C11_not_empty"
   ],
   "note": "jdmarker.c reader on arbitrary bytes in every history of feeding/reading; every assignment inside its array, exact segment lengths, no endless loop, header limits (with jdinput.c initial_setup)"
  },
  {
   "property": "C12",
   "status": "proved",
   "theorems": [
    "Verif.IO.mem_dest_exact",
    "Verif.IO.stdio_dest_exact"
   ],
   "note": "memory and stdio destinations; see also Verif.IO.outbuffer_dangles_before_term"
  },
  {
   "property": "C13",
   "status": "proved",
   "theorems": [
    "Verif.Out.C13_no_suspension",
    "Verif.Out.C13_buffers_invisible",
    "Verif.Out.C13_suspension",
    "Verif.Out.C13_suspension_ends",
    "Verif.Out.C13_markers"
   ],
   "note": "Sequential Huffman encoder at the level of stores into the output buffer (and the 512-byte local one); any buffer sizes, managers that always make room or always suspend; plus emit_byte of the writers that do not suspend (any manager)."
  },
  {
   "property": "C14",
   "status": "proved",
   "theorems": [
    "Verif.IO.skip_is_reading",
    "Verif.IO.past_end_is_eoi",
    "Verif.IO.empty_input_is_error"
   ],
   "note": ""
  },
  {
   "property": "C15",
   "status": "proved",
   "theorems": [
    "Verif.Quant.quality_tables_legal_and_monotone",
    "Verif.Quant.quality_scaling_curve"
   ],
   "note": "float arithmetic abstracted as a monotone rounding exact on small integers"
  },
  {
   "property": "C16",
   "status": "proved",
   "theorems": [
    "Verif.Quant.reciprocal_quantization_exact",
    "Verif.Quant.quantize12_exact"
   ],
   "note": "all divisors 1..65535; quantval<=8191 for islow, see DESIGN findings"
  },
  {
   "property": "C17",
   "status": "proved",
   "theorems": [
    "Verif.Script.simpleProgression_fits",
    "Verif.Script.simpleProgression_legal",
    "Verif.Script.simpleProgression_search_fallback",
    "Verif.Script.simpleScript_length",
    "Verif.Script.searchScript_length"
   ],
   "note": "Any component count and configuration: announced scans = written scans, within the allocated array; script accepted by the validator and complete."
  },
  {
   "property": "C18",
   "status": "proved",
   "theorems": [
    "Verif.Script.scan_search_found",
    "Verif.Script.scan_search_validates",
    "Verif.Script.search_script_source"
   ],
   "note": "Trial scans abstracted to an arbitrary size function of scan index and Al; search loop, decisions, jumps, pass counting and copy order as in jcmaster.c."
  },
  {
   "property": "C19",
   "status": "proved",
   "theorems": [
    "Verif.Script.validate_progressive_iff",
    "Verif.Script.validate_sequential_iff",
    "Verif.Script.validate_lossless_iff",
    "Verif.Script.bitsInOrder_positions"
   ],
   "note": "Accepts exactly the legal scripts (separate declarative spec), for every component count and precision."
  },
  {
   "property": "C20",
   "status": "proved",
   "theorems": [
    "Verif.Color.rgb_to_ycc_in_range_and_accurate",
    "Verif.Color.cmyk_ycck_cmyk_within_one",
    "Verif.Color.input_pixel_format_independent"
   ],
   "note": "8 and 12 bit"
  },
  {
   "property": "C21",
   "status": "proved",
   "theorems": [
    "Verif.Color.ycc_to_rgb_clamped_and_accurate",
    "Verif.Color.rgb_ycc_rgb_within_one",
    "Verif.Color.output_pixel_format_exact"
   ],
   "note": "8 and 12 bit; RGB565 is covered by C43"
  },
  {
   "property": "C22",
   "status": "proved",
   "theorems": [
    "Verif.Samp.C22_upsample",
    "Verif.Samp.C22_between",
    "Verif.Samp.C22_constant",
    "Verif.Samp.C22_width",
    "Verif.Samp.C22_context_scale"
   ],
   "note": "Every method of jdsample.c (fullsize, h2v1, h2v2, integral, three triangle filters) with its selection: exact row and sample counts, no read outside the rows, closed formula of each sample, between min and max of the neighbourhood, constants reproduced. SIMD versions not modelled."
  },
  {
   "property": "C23",
   "status": "proved",
   "theorems": [
    "Verif.Samp.C23_downsample",
    "Verif.Samp.C23_between",
    "Verif.Samp.C23_constant"
   ],
   "note": "Every method of jcsample.c including the two smoothing ones (smoothing_factor 0..100), edge expansion, and method selection. SIMD versions not modelled."
  },
  {
   "property": "C24",
   "status": "proved",
   "theorems": [
    "Verif.Transf.transforms_compose",
    "Verif.Transf.transform_undone",
    "Verif.Transf.execute_whole"
   ],
   "note": "all eight transforms on every image of whole iMCUs; laws stated by 2x2 matrices"
  },
  {
   "property": "C25",
   "status": "proved",
   "theorems": [
    "Verif.Transf.transform_is_pixel_transform",
    "Verif.Transf.idct_mirror",
    "Verif.Transf.idct_transpose"
   ],
   "note": "exact real inverse DCT; coefficients other than -32768"
  },
  {
   "property": "C26",
   "status": "proved",
   "theorems": [
    "Verif.Transf.perfect_exact",
    "Verif.Transf.trim_exact",
    "Verif.Transf.trim_crop_exact",
    "Verif.Transf.trimmed_is_perfect"
   ],
   "note": "perfection test and edge trimming"
  },
  {
   "property": "C27",
   "status": "proved",
   "theorems": [
    "Verif.Geom.geometry_agrees",
    "Verif.Geom.mcu_walk_exact"
   ],
   "note": "initial_setup/per_scan_setup of compressor and decompressor, MCU walk of transcoder and consume_data; suspension inside a row and backing store not modelled"
  },
  {
   "property": "C28",
   "status": "proved",
   "theorems": [
    "Verif.Icc.read_icc_exact",
    "Verif.Icc.icc_roundtrip"
   ],
   "note": ""
  },
  {
   "property": "C29",
   "status": "proved",
   "theorems": [
    "Verif.Api.C.C29_comp_order",
    "Verif.Api.C.C29_comp_refused",
    "Verif.Api.C.C29_comp_no_crash",
    "Verif.Api.C.C29_comp_finish",
    "Verif.Api.C.C29_comp_rows",
    "Verif.Api.C.C29_comp_marker_before_sos",
    "Verif.Api.C.C29_comp_reuse",
    "Verif.Api.D.C29_decomp_order",
    "Verif.Api.D.C29_decomp_refused",
    "Verif.Api.D.C29_decomp_no_crash",
    "Verif.Api.D.C29_decomp_finish",
    "Verif.Api.D.C29_decomp_rows",
    "Verif.Api.D.C29_decomp_reuse"
   ],
   "note": "both objects, all call sequences, any input and outcome; exceptions (calls that the code does not check, stale fields after reuse) are stated in the hypotheses and proved as counterexamples beside the theorems"
  },
  {
   "property": "C30",
   "status": "proved",
   "theorems": [
    "Verif.Rst.C30_next_marker",
    "Verif.Rst.C30_resync",
    "Verif.Rst.C30_counter",
    "Verif.Rst.C30_expected",
    "Verif.Rst.C30_outcome",
    "Verif.Rst.C30_lost_markers",
    "Verif.Rst.C30_other_marker",
    "Verif.Rst.C30_chunks",
    "Verif.Rst.C30_repeated_warning"
   ],
   "note": "All data, all pending markers, all chunkings; loss of up to two restart markers costs only those segments; the number of JWRN_MUST_RESYNC warnings depends on the chunking (C30_repeated_warning)."
  },
  {
   "property": "C31",
   "status": "proved",
   "theorems": [
    "Verif.TJ.plane_dims",
    "Verif.TJ.plane_size",
    "Verif.TJ.yuv_buf_size",
    "Verif.TJ.jpeg_buf_size",
    "Verif.TJ.jpeg_buf_size_mono",
    "Verif.TJ.jpeg_buf_covers_yuv"
   ],
   "note": "LP64; signed int overflow modelled as undefined (none)"
  },
  {
   "property": "C32",
   "status": "proved",
   "theorems": [
    "Verif.Idct.C32_legal_output",
    "Verif.Idct.C32_dc_constant",
    "Verif.Idct.C32_shortcuts_exact8",
    "Verif.Idct.C32_shortcuts_exact4",
    "Verif.Idct.C32_shortcuts_exact2"
   ],
   "note": "islow 8x8 and the reduced sizes 7..1; sizes 9..16, ifast and float methods and SIMD are not modelled"
  },
  {
   "property": "C33",
   "status": "proved",
   "theorems": [
    "Verif.Pool.C33_regions",
    "Verif.Pool.C33_freed_once",
    "Verif.Pool.C33_accounting",
    "Verif.Pool.C33_oversize",
    "Verif.Pool.C33_progress",
    "Verif.Pool.C33_array_progress",
    "Verif.Pool.C33_rows"
   ],
   "note": "small, large, sample-array and block-array requests, pool releases and destruction, any malloc behaviour, LP64"
  },
  {
   "property": "C34",
   "status": "proved",
   "theorems": [
    "Verif.Trellis.trellis_shrinks",
    "Verif.Trellis.trellis_optimal"
   ],
   "note": "Shrinking holds for any float arithmetic, with and without EOB-run optimization. Optimality is per block, exact rational arithmetic, EOB-run optimization off (with it on, the code's final loop leaves out a cost term, see DESIGN.md findings)."
  },
  {
   "property": "C35",
   "status": "proved",
   "theorems": [
    "Verif.Ext.supported_iff",
    "Verif.Ext.set_get",
    "Verif.Ext.last_set_wins"
   ],
   "note": "all accessors of jcext.c; floats as opaque bit patterns"
  },
  {
   "property": "C36",
   "status": "proved",
   "theorems": [
    "Verif.Transf.execute_any"
   ],
   "note": "partial edge iMCUs, any dimensions"
  },
  {
   "property": "C37",
   "status": "proved",
   "theorems": [
    "Verif.Geom.controllers_agree",
    "Verif.Geom.image_roundtrip",
    "Verif.Geom.onepass_idct_exact"
   ],
   "note": "blocks as given (DCT/quantization are C16); virtual arrays as plain arrays; no partial-image crop"
  },
  {
   "property": "C38",
   "status": "proved",
   "theorems": [
    "Verif.Huff.Opt.optimal_table_minimal"
   ],
   "note": "Huffman optimality by exchange argument against every Kraft assignment."
  },
  {
   "property": "C39",
   "status": "proved",
   "theorems": [
    "Verif.Huff.Opt.optimize_coding_roundtrip"
   ],
   "note": "Combines C01 and C05."
  },
  {
   "property": "C40",
   "status": "proved",
   "theorems": [
    "Verif.Trellis.dc_trellis_optimal",
    "Verif.Trellis.numCand_odd"
   ],
   "note": "Exact rational arithmetic."
  },
  {
   "property": "C41",
   "status": "proved",
   "theorems": [
    "Verif.Mark.C41_saved_markers"
   ],
   "note": "All marker sequences; suspension of the source is C09."
  },
  {
   "property": "C42",
   "status": "proved",
   "theorems": [
    "Verif.Virt.C42_virtual_array",
    "Verif.Virt.C42_no_backing_store",
    "Verif.Virt.C42_window_positive"
   ],
   "note": "model of access_virt_*/do_*_io/realize with a backing store; row contents abstract. For sample arrays do_sarray_io uses the unpadded row length while rows are padded (see DESIGN.md findings), so the backing-store half holds for coefficient arrays; sample arrays without backing store are covered"
  },
  {
   "property": "C43",
   "status": "proved",
   "theorems": [
    "Verif.Merge.C43_row",
    "Verif.Merge.C43_row2",
    "Verif.Merge.C43_565_colour",
    "Verif.Merge.C43_565_row",
    "Verif.Merge.C43_565_row2",
    "Verif.Merge.C43_565_separate",
    "Verif.Merge.C43_read",
    "Verif.Merge.C43_skip",
    "Verif.Merge.C43_complete",
    "Verif.Merge.C43_rgb",
    "Verif.Merge.C43_565",
    "Verif.Merge.C43_room_reading",
    "Verif.Merge.C43_room_one",
    "Verif.Merge.C43_skip_even"
   ],
   "note": "portable C code; excluded: max_lines = 0, skips past the current iMCU row from an odd line (2:1 vertical), skips that leave an iMCU row nothing of which was read (1:1 vertical), room for two lines at the last line of an odd height after a skip (counterexamples C43_bug_*); separate RGB565 conversion: one row per call"
  },
  {
   "property": "C44",
   "status": "proved",
   "theorems": [
    "Verif.Post.C44_rows",
    "Verif.Post.C44_progress",
    "Verif.Post.C44_complete",
    "Verif.Post.C44_independent",
    "Verif.Post.C44_no_dummy_rows",
    "Verif.Post.C44_fullsize"
   ],
   "note": "Rows abstract, upsampling methods arbitrary functions of the rows they may read, colour conversion abstracted to the tuple of component rows; colour quantization (jdpostct.c two-pass) and merged upsampling are not in this theorem."
  },
  {
   "property": "C45",
   "status": "proved",
   "theorems": [
    "Verif.Prep.C45_feed",
    "Verif.Prep.C45_accepts",
    "Verif.Prep.C45_independent"
   ],
   "note": "one component (components share only counters); colour conversion abstract per row; the downsampler is any function from its input rows to v rows"
  },
  {
   "property": "C46",
   "status": "proved",
   "theorems": [
    "Verif.Post.C46_read",
    "Verif.Post.C46_skip",
    "Verif.Post.C46_fancy",
    "Verif.Post.C46_no_vertical",
    "Verif.Post.C46_bug_two_skips",
    "Verif.Post.C46_bug_stale_line",
    "Verif.Post.C46_bug_too_many",
    "Verif.Post.C46_bug_four",
    "Verif.Post.C46_bug_empty_read"
   ],
   "note": "For all histories of reads and skips satisfying ReadOk/SkipOk (always satisfied for 4:2:0 fancy upsampling with buffers of >= 1 line); outside them the code fails, shown by counterexamples. Not modelled: merged upsampling, colour quantization, suspension inside a skip (unsupported by the API)."
  },
  {
   "property": "C47",
   "status": "proved",
   "theorems": [
    "Verif.Idct.C47_idct_accuracy",
    "Verif.Idct.C47_sample_within_one"
   ],
   "note": "error bound against the exact inverse DCT of T.81 A.3.3"
  },
  {
   "property": "C48",
   "status": "proved",
   "theorems": [
    "Verif.Huff.C48_no_fault",
    "Verif.Huff.C48_fast_path",
    "Verif.Huff.C48_fill_counterexample"
   ],
   "note": "512 bytes per block is enough for every table and every bit pattern; the exception (FF FF 00) is a theorem too"
  },
  {
   "property": "C49",
   "status": "proved",
   "theorems": [
    "Verif.Arith.C49_prog",
    "Verif.Arith.C49_prog_complete",
    "Verif.Arith.C49_seq",
    "Verif.Arith.C49_large_dc"
   ],
   "note": "Whole arithmetic-coded files, sequential and progressive, any accepted script, geometry, restart interval, conditioning. C49_large_dc: the coefficient range is needed. DAC and SOS contents taken as transmitted; statistics areas reset for all tables."
  },
  {
   "property": "C50",
   "status": "proved",
   "theorems": [
    "C50_arith_safe",
    "C50_scan",
    "C50_overflow_first",
    "C50_overflow_refine",
    "C50_bad_code_stops"
   ],
   "note": "all MCU routines of jdarith.c on arbitrary bytes; statistics index, state table index, registers, coefficient range, band; a bad code stops the restart interval"
  },
  {
   "property": "C51",
   "status": "proved",
   "theorems": [
    "Verif.Fdct.C51_deringing",
    "Verif.Fdct.C51_same_picture",
    "Verif.Fdct.C51_untouched",
    "Verif.Fdct.float32_ok",
    "Verif.Fdct.C51_bug_12bit"
   ],
   "note": "8-bit samples, integer DCT methods; at 12 bits the claim is false (counterexample proved)"
  },
  {
   "property": "C52",
   "status": "proved",
   "theorems": [
    "Verif.Fdct.C52_fdct8",
    "Verif.Fdct.C52_fdct12",
    "Verif.Fdct.C52_coef_range",
    "Verif.Fdct.C52_bug_overflow"
   ],
   "note": "C52_bug_overflow shows the 12-bit transform overflowing where long has 32 bits"
  },
  {
   "property": "C53",
   "status": "proved",
   "theorems": [
    "Verif.Fdct.C53_block_roundtrip",
    "Verif.Fdct.C53_max_quantizer",
    "Verif.Fdct.C53_quality100",
    "Verif.Fdct.C53_bug_wrap"
   ],
   "note": "C53_bug_wrap: beyond the bound the range-limit table wraps, white decodes to black"
  },
  {
   "property": "C54",
   "status": "proved",
   "theorems": [
    "Verif.Prog.C54_safe",
    "Verif.Prog.C54_chunks",
    "Verif.Prog.C54_progress",
    "Verif.Prog.C54_total",
    "Verif.Prog.C54_layout",
    "Verif.Prog.C54_outside_band"
   ],
   "note": "Warnings other than HIT_MARKER may be issued twice when an MCU is decoded again; they are not compared."
  },
  {
   "property": "C55",
   "status": "proved",
   "theorems": [
    "Verif.Quant1.C55_palette",
    "Verif.Quant1.C55_distinct",
    "Verif.Quant1.C55_pass",
    "Verif.Quant1.C55_nearest",
    "Verif.Quant1.C55_ordered_close",
    "Verif.Quant1.C55_fs_close",
    "Verif.Quant1.C55_matrix",
    "Verif.Quant1.C55_darkened"
   ],
   "note": "All of jquant1.c with checked accesses; any history of passes and dither modes, any batches of rows. C55_darkened is a finding (rounding not to nearest)."
  },
  {
   "property": "C56",
   "status": "proved",
   "theorems": [
    "Verif.File.file_roundtrip",
    "Verif.File.file_transcode"
   ],
   "note": "Whole files, written scan by scan (statistics pass, headers, data) and read back through the marker reader and entropy decoders, all four combinations of mode and coder. Hypotheses (LegalJob): tables cover all symbols or optimization with fewer than 9227464 symbols per table and scan; one AC table per DC table when DHT markers are merged (finding). Not in this theorem: lossless mode (C03), trellis passes, suspension (C06, C54)."
  },
  {
   "property": "C57",
   "status": "proved",
   "theorems": [
    "Verif.Quant2.C57_init",
    "Verif.Quant2.C57_prescan",
    "Verif.Quant2.C57_palette",
    "Verif.Quant2.C57_pass",
    "Verif.Quant2.C57_few",
    "Verif.Quant2.C57_fs_close",
    "Verif.Quant2.C57_centre_close",
    "Verif.Quant2.C57_ycc_fails",
    "Verif.Quant2.C57_white",
    "Verif.Quant2.C57_long32"
   ],
   "note": "jquant2.c complete; all histories of prescans, output passes and palette changes (Reach). Hypotheses: 8- or 12-bit samples, RGB component order (finding 32), palettes of the application have samples in range, long wide enough for the image (LongOk, finding 34)."
  },
  {
   "property": "C58",
   "status": "proved",
   "theorems": [
    "Verif.Smooth.C58_correct",
    "Verif.Smooth.C58_respects",
    "Verif.Smooth.C58_flat",
    "Verif.Smooth.C58_used_iff",
    "Verif.Smooth.C58_exact",
    "Verif.Smooth.C58_no_wrap",
    "Verif.Smooth.C58_symmetric",
    "Verif.Smooth.C58_rounding"
   ],
   "note": "all of decompress_smooth_data except the loop that forces input first; window rows at the bottom are those the code really uses (findings 36, 37)"
  },
  {
   "property": "C59",
   "status": "proved",
   "theorems": [
    "Verif.Crop.parse_iff",
    "Verif.Crop.crop_geometry",
    "Verif.Crop.crop_is_rectangle",
    "Verif.Crop.none_geometry",
    "Verif.Crop.extension_content",
    "Verif.Crop.wipe_geometry",
    "Verif.Crop.wipe_content",
    "Verif.Crop.drop_geometry",
    "Verif.Crop.drop_content",
    "Verif.Crop.reflect_needs_imcu",
    "Verif.Crop.flat_needs_imcu",
    "Verif.Crop.narrow_extension",
    "Verif.Crop.proportional_drop_overreads"
   ],
   "note": "Extension with f/r needs an image at least one iMCU wide (counterexamples proved); drop needs the same sampling grid (counterexample proved). Requantization of a drop is C60."
  },
  {
   "property": "C60",
   "status": "proved",
   "theorems": [
    "Verif.Crop.adjust_exact",
    "Verif.Crop.adjust_trim",
    "Verif.Crop.drop_values",
    "Verif.Crop.requantCoef_eq",
    "Verif.Crop.lcd_gcd"
   ],
   "note": "Exactness without trim, rounding to nearest with trim, and the composition with the drop itself. Conditions needed are hypotheses; theorems zero_entry_divides_by_zero, large_entries, requant_wraps, shared_slot_corrupts show what the code does without them."
  },
  {
   "property": "C61",
   "status": "proved",
   "theorems": [
    "Verif.Ppm.load_safe",
    "Verif.Ppm.load_content",
    "Verif.Ppm.scale_spec",
    "Verif.Ppm.load_truncated",
    "Verif.Ppm.write_load",
    "Verif.Ppm.load_write",
    "Verif.Ppm.cmyk_inverse",
    "Verif.Ppm.cmyk_robust",
    "Verif.Ppm.formats_layout"
   ],
   "note": "cmyk.h with exact arithmetic (cmyk_robust: either rounding at ties); colour-mapped output not modelled."
  },
  {
   "property": "C62",
   "status": "proved",
   "theorems": [
    "Verif.Gif.load_safe",
    "Verif.Gif.load_rows",
    "Verif.Gif.interlacedOrder_perm",
    "Verif.Gif.interlacedOrder_length"
   ],
   "note": "load_safe: no fault and the facts about what is accepted; load_rows: where each row of data goes, with interlacedOrder a permutation of the rows."
  },
  {
   "property": "C63",
   "status": "proved",
   "theorems": [
    "Verif.Gif.load_pixels"
   ],
   "note": "Every file whose header is accepted and whose codes suffice; colours by the colour map (colours) and rows by interlacedOrder, as in load_rows."
  },
  {
   "property": "C64",
   "status": "proved",
   "theorems": [
    "Verif.Gif.lzwData_spec",
    "Verif.Gif.rawData_spec"
   ],
   "note": "lzwData_spec: compressed; rawData_spec: uncompressed; both against the decoder specification strings of C63."
  },
  {
   "property": "C65",
   "status": "proved",
   "theorems": [
    "Verif.Gif.gif_round_trip",
    "Verif.Gif.gif_too_many"
   ],
   "note": "Whole files: header (emit_header), LZW or raw data, terminator; read by load (start_input_gif, load of all rows). Colour maps as 8 + cshift bit samples; write errors not modelled. Images wider or higher than 65535 (scaling up) are outside (finding 49)."
  },
  {
   "property": "C66",
   "status": "proved",
   "theorems": [
    "Verif.Tga.load_safe",
    "Verif.Tga.load_content",
    "Verif.Tga.tga_round_trip"
   ],
   "note": "Whole files. The virtual array of a bottom-up image is a list of rows; write errors not modelled; 8-bit samples."
  },
  {
   "property": "C67",
   "status": "proved",
   "theorems": [
    "Verif.MapFile.read_safe",
    "Verif.MapFile.gif_content",
    "Verif.MapFile.ppm_content",
    "Verif.MapFile.ppm_refused",
    "Verif.MapFile.text_truncated",
    "Verif.MapFile.text_range",
    "Verif.MapFile.firsts_spec",
    "Verif.MapFile.read_kind",
    "Verif.MapFile.ppm_max_refused"
   ],
   "note": "comments, whitespace and any header layout of PPM files included"
  },
  {
   "property": "C68",
   "status": "proved",
   "theorems": [
    "Verif.Switch.script_safe",
    "Verif.Switch.tables_file_safe",
    "Verif.Switch.script_content",
    "Verif.Switch.tables_content",
    "Verif.Switch.tables_short",
    "Verif.Switch.script_refused",
    "Verif.Switch.tables_refused",
    "Verif.Switch.isSpace_spec"
   ],
   "note": "LP64; numbers of more than 18 digits are excluded from the safety theorems, as they can overflow (finding 51)"
  }
 ]
}